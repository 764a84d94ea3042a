import Verif.Model.Joined
import Verif.Props.Extra

/-! # A part of a problem that has nothing to do with the rest -/

namespace Pxmcmc
variable {n n' : ℕ}

/-! ## Arrays -/

theorem pick_length {k k' : ℕ} (e : Fin k' → Fin k) (l : List ℂ) : (pick e l).length = k' := by simp [pick]

theorem pick_ofFn {k k' : ℕ} (e : Fin k' → Fin k) (v : Fin k → ℂ) : pick e (List.ofFn v) = List.ofFn fun i => v (e i) := by
  unfold pick
  congr 1
  funext i
  rw [List.getD_eq_getElem?_getD, List.getElem?_ofFn]
  simp

theorem pick_left {a b : ℕ} (x y : List ℂ) (hx : x.length = a) (hy : y.length = b) : pick (Fin.castAdd b : Fin a → Fin (a + b)) (x ++ y) = x := by
  obtain ⟨v, rfl⟩ := exists_ofFn x hx
  obtain ⟨w, rfl⟩ := exists_ofFn y hy
  rw [← List.ofFn_fin_append, pick_ofFn]
  simp only [Fin.append_left]

theorem pick_right {a b : ℕ} (x y : List ℂ) (hx : x.length = a) (hy : y.length = b) : pick (Fin.natAdd a : Fin b → Fin (a + b)) (x ++ y) = y := by
  obtain ⟨v, rfl⟩ := exists_ofFn x hx
  obtain ⟨w, rfl⟩ := exists_ofFn y hy
  rw [← List.ofFn_fin_append, pick_ofFn]
  simp only [Fin.append_right]

/-- An array of `a + b` entries is its first `a` entries followed by its last `b`. -/
theorem pick_append {a b : ℕ} (l : List ℂ) (h : l.length = a + b) :
    pick (Fin.castAdd b : Fin a → Fin (a + b)) l ++ pick (Fin.natAdd a : Fin b → Fin (a + b)) l = l := by
  obtain ⟨v, rfl⟩ := exists_ofFn l h
  rw [pick_ofFn, pick_ofFn, ← List.ofFn_fin_append]
  congr 1
  funext j
  refine Fin.addCases (fun i => ?_) (fun i => ?_) j
  · rw [Fin.append_left]
  · rw [Fin.append_right]

theorem noise_part (R : Rng) (len : ℕ → ℕ) (e : ∀ k, Fin k → Fin (len k)) (cplx : Bool) (r : R.σ) (k : ℕ) :
    noise (R.part len e) (R.part len e).randn cplx r k =
      (pick (e k) (noise R R.randn cplx r (len k)).1, (noise R R.randn cplx r (len k)).2) ∧
    noise (R.part len e) (R.part len e).laplace cplx r k =
      (pick (e k) (noise R R.laplace cplx r (len k)).1, (noise R R.laplace cplx r (len k)).2) := by
  constructor <;> cases cplx <;> simp [noise, Rng.part, pick_ofFn]

theorem noise_len (R : Rng) (draw : R.σ → (k : ℕ) → (Fin k → ℝ) × R.σ) (cplx : Bool) (r : R.σ) (k : ℕ) :
    (noise R draw cplx r k).1.length = k := by
  cases cplx <;> simp [noise]

/-! ## The relation between the two samplers -/

/-- The current sample of the part. -/
def Cur.part {R : Rng} {len : ℕ → ℕ} (e : ∀ k, Fin k → Fin (len k)) (p : ℕ) (d : Fin n' → Fin n) (x : Cur R) : Cur (R.part len e) :=
  ⟨pick (e p) x.X, pick d x.preds, x.rng⟩

/-- The sampler `M'` is a part of `M`: its parameters are those with the indices `e`, its data those with the indices `d`. -/
structure PartOf (len : ℕ → ℕ) (e : ∀ k, Fin k → Fin (len k)) (d : Fin n' → Fin n) (M : Sampler n) (M' : Sampler n') : Prop where
  par : M'.par = M.par
  nparams : M.nparams = len M'.nparams
  fwd : ∀ X, X.length = M.nparams → ∀ Y, M.F.forward X = .ok Y → Y.length = n ∧ M'.F.forward (pick (e M'.nparams) X) = .ok (pick d Y)
  grad : ∀ Y, Y.length = n → ∀ G, M.F.calcGradg Y = .ok G → G.length = M.nparams ∧ M'.F.calcGradg (pick d Y) = .ok (pick (e M'.nparams) G)
  prox : ∀ X, X.length = M.nparams → ∀ Y, M.P.proxf X = .ok Y →
    Y.length = M.nparams ∧ M'.P.proxf (pick (e M'.nparams) X) = .ok (pick (e M'.nparams) Y)
  logpi : ∀ X Y, X.length = M.nparams → Y.length = n → ∀ l, Pxmcmc.logpi M.F M.P M.par.mu X Y = .ok l →
    ∃ l', Pxmcmc.logpi M'.F M'.P M'.par.mu (pick (e M'.nparams) X) (pick d Y) = .ok l'

section
variable {len : ℕ → ℕ} {e : ∀ k, Fin k → Fin (len k)} {d : Fin n' → Fin n} {M : Sampler n} {M' : Sampler n'} (U : PartOf len e d M M')
include U

theorem PartOf.chainStep (R : Rng) (δ : ℝ) (r : R.σ) (X pf gg : List ℂ) (hX : X.length = M.nparams) (hp : pf.length = M.nparams)
    (hg : gg.length = M.nparams) (y : List ℂ × R.σ) (h : Pxmcmc.chainStep M R δ r X pf gg = .ok y) : y.1.length = M.nparams ∧
    Pxmcmc.chainStep M' (R.part len e) δ r (pick (e M'.nparams) X) (pick (e M'.nparams) pf) (pick (e M'.nparams) gg) =
      .ok (pick (e M'.nparams) y.1, y.2) := by
  have hn := U.nparams
  rw [hn] at hX hp hg
  obtain ⟨x, rfl⟩ := exists_ofFn X hX
  obtain ⟨f, rfl⟩ := exists_ofFn pf hp
  obtain ⟨g, rfl⟩ := exists_ofFn gg hg
  unfold Pxmcmc.chainStep at h ⊢
  rw [U.par, (noise_part R len e M.par.complex r M'.nparams).1]
  have hw := noise_len R R.randn M.par.complex r (len M'.nparams)
  rw [hn] at h
  generalize noise R R.randn M.par.complex r (len M'.nparams) = w at hw h
  obtain ⟨w1, w2⟩ := w
  obtain ⟨w, rfl⟩ := exists_ofFn w1 hw
  simp only at h ⊢
  obtain ⟨q, hq, h⟩ := bind_ok h
  rw [hq]
  simp only [bind, Except.bind, map_ofFn', npAdd_ofFn, npSub_ofFn] at h
  obtain rfl := Except.ok.inj h
  simp only [pick_ofFn, bind, Except.bind, map_ofFn', npAdd_ofFn, npSub_ofFn, List.length_ofFn, hn]
  exact ⟨trivial, trivial⟩

theorem PartOf.myulaStep (R : Rng) (x y : Cur R) (hX : x.X.length = M.nparams) (hY : x.preds.length = n)
    (h : Pxmcmc.myulaStep M R x = .ok y) : y.X.length = M.nparams ∧ y.preds.length = n ∧
    Pxmcmc.myulaStep M' (R.part len e) (x.part e M'.nparams d) = .ok (y.part e M'.nparams d) := by
  unfold Pxmcmc.myulaStep at h ⊢
  obtain ⟨g, hg, h⟩ := bind_ok h
  obtain ⟨f, hf, h⟩ := bind_ok h
  obtain ⟨z, hz, h⟩ := bind_ok h
  obtain ⟨q, hq, h⟩ := bind_ok h
  obtain rfl := Except.ok.inj h
  obtain ⟨g1, g2⟩ := U.grad _ hY _ hg
  obtain ⟨f1, f2⟩ := U.prox _ hX _ hf
  obtain ⟨z1, z2⟩ := U.chainStep R _ _ _ _ _ hX f1 g1 _ hz
  obtain ⟨q1, q2⟩ := U.fwd _ z1 _ hq
  refine ⟨z1, q1, ?_⟩
  simp only [Cur.part, g2, f2, U.par, bind, Except.bind]
  rw [z2]
  simp only [q2]

theorem PartOf.gradlogpi (X G : List ℂ) (hX : X.length = M.nparams) (h : Pxmcmc.gradlogpi M.F M.P M.par.lmda X none = .ok G) :
    G.length = M.nparams ∧ Pxmcmc.gradlogpi M'.F M'.P M'.par.lmda (pick (e M'.nparams) X) none = .ok (pick (e M'.nparams) G) := by
  unfold Pxmcmc.gradlogpi gradf at h ⊢
  obtain ⟨gf, hgf, h⟩ := bind_ok h
  obtain ⟨p, hp, hgf⟩ := bind_ok hgf
  obtain ⟨df, hdf, hgf⟩ := bind_ok hgf
  obtain rfl := Except.ok.inj hgf
  obtain ⟨Y, hY, h⟩ := bind_ok h
  obtain ⟨gg, hgg, h⟩ := bind_ok h
  obtain ⟨p1, p2⟩ := U.prox _ hX _ hp
  obtain ⟨y1, y2⟩ := U.fwd _ hX _ hY
  obtain ⟨g1, g2⟩ := U.grad _ y1 _ hgg
  have hn := U.nparams
  rw [U.par]
  simp only [p2, y2, g2, bind, Except.bind]
  rw [hn] at hX p1 g1 ⊢
  obtain ⟨x, rfl⟩ := exists_ofFn X hX
  obtain ⟨f, rfl⟩ := exists_ofFn p p1
  obtain ⟨g, rfl⟩ := exists_ofFn gg g1
  rw [npSub_ofFn] at hdf
  obtain rfl := Except.ok.inj hdf
  simp only [map_ofFn', npSub_ofFn] at h
  obtain rfl := Except.ok.inj h
  simp only [pick_ofFn, map_ofFn', npSub_ofFn, List.length_ofFn]
  exact ⟨trivial, trivial⟩

omit U in
theorem kRec_part {k k' : ℕ} (e : Fin k' → Fin k) (co : SkrockCoefs) (δ : ℝ) (grad : (Fin k → ℂ) → Py (Fin k → ℂ))
    (grad' : (Fin k' → ℂ) → Py (Fin k' → ℂ)) (hg : ∀ v g, grad v = .ok g → grad' (fun i => v (e i)) = .ok fun i => g (e i))
    (X Z : Fin k → ℂ) (s : ℕ) : ∀ y, kRec co δ grad X Z s = .ok y →
      kRec co δ grad' (fun i => X (e i)) (fun i => Z (e i)) s = .ok (fun i => y.1 (e i), y.2) := by
  induction s using Nat.strong_induction_on with
  | _ s ih =>
    intro y h
    match s, ih with
    | 0, _ =>
      simp only [kRec] at h ⊢
      obtain rfl := Except.ok.inj h
      rfl
    | 1, _ =>
      simp only [kRec] at h ⊢
      obtain ⟨g, h1, h⟩ := bind_ok h
      obtain rfl := Except.ok.inj h
      rw [hg _ _ h1]
      rfl
    | s + 2, ih =>
      simp only [kRec] at h ⊢
      obtain ⟨⟨a, na⟩, h1, h⟩ := bind_ok h
      obtain ⟨g, h2, h⟩ := bind_ok h
      obtain ⟨⟨b, nb⟩, h3, h⟩ := bind_ok h
      obtain ⟨⟨c, nc⟩, h4, h⟩ := bind_ok h
      obtain rfl := Except.ok.inj h
      obtain ⟨rfl, rfl⟩ := Prod.mk.inj (Except.ok.inj (h1.symm.trans h3))
      have i1 := ih (s + 1) (by omega) _ h1
      have i4 := ih s (by omega) _ h4
      rw [i1]
      simp only [bind, Except.bind]
      rw [hg _ _ h2]
      simp only [i4]

omit U in
theorem skrockStep_part {k k' : ℕ} (e : Fin k' → Fin k) (co : SkrockCoefs) (δ : ℝ) (grad : (Fin k → ℂ) → Py (Fin k → ℂ))
    (grad' : (Fin k' → ℂ) → Py (Fin k' → ℂ)) (hg : ∀ v g, grad v = .ok g → grad' (fun i => v (e i)) = .ok fun i => g (e i))
    (X Z : Fin k → ℂ) (s : ℕ) (y : Fin k → ℂ) (h : skrockStep co s δ grad X Z = .ok y) :
      skrockStep co s δ grad' (fun i => X (e i)) (fun i => Z (e i)) = .ok fun i => y (e i) := by
  unfold skrockStep at h ⊢
  obtain ⟨z, hz, h⟩ := bind_ok h
  obtain rfl := Except.ok.inj h
  rw [kRec_part e co δ grad grad' hg X Z s z hz]
  rfl

theorem PartOf.skrockTransition (R : Rng) (co : SkrockCoefs) (x y : Cur R) (hX : x.X.length = M.nparams)
    (h : Pxmcmc.skrockTransition M R co x = .ok y) : y.X.length = M.nparams ∧ y.preds.length = n ∧
    Pxmcmc.skrockTransition M' (R.part len e) co (x.part e M'.nparams d) = .ok (y.part e M'.nparams d) := by
  have hn := U.nparams
  unfold Pxmcmc.skrockTransition at h ⊢
  simp only [Cur.part] at h ⊢
  have hl := pick_length (e M'.nparams) x.X
  generalize hk : (pick (e M'.nparams) x.X).length = k' at hl ⊢
  subst hl
  generalize hk0 : x.X.length = k at h
  rw [hk0, hn] at hX
  subst hX
  obtain ⟨v, hv⟩ := exists_ofFn x.X hk0
  have hw := noise_len R R.randn M.par.complex x.rng (len M'.nparams)
  rw [U.par, (noise_part R len e M.par.complex x.rng M'.nparams).1]
  generalize noise R R.randn M.par.complex x.rng (len M'.nparams) = w at hw h
  obtain ⟨w1, w2⟩ := w
  obtain ⟨w, rfl⟩ := exists_ofFn w1 hw
  rw [hv] at h ⊢
  simp only [pick_ofFn] at h ⊢
  rw [asVec_ofFn] at h
  rw [asVec_ofFn]
  change ((asVec _ (List.ofFn w)) >>= _) = _ at h
  rw [asVec_ofFn] at h
  change (skrockStep co M.par.s M.par.delta _ v w >>= _) = _ at h
  obtain ⟨z, hz, h⟩ := bind_ok h
  obtain ⟨Y, hY, h⟩ := bind_ok h
  obtain rfl := Except.ok.inj h
  have key := skrockStep_part (e M'.nparams) co M.par.delta _
      (fun v => do
        let g ← Pxmcmc.gradlogpi M'.F M'.P M.par.lmda (List.ofFn v) none
        asVec M'.nparams g) (by
        intro v g h1
        obtain ⟨G, h2, h1⟩ := bind_ok h1
        obtain ⟨l1, l2⟩ := U.gradlogpi _ _ (by rw [hn]; simp) h2
        rw [hn] at l1
        obtain ⟨g', rfl⟩ := exists_ofFn G l1
        rw [asVec_ofFn] at h1
        obtain rfl := Except.ok.inj h1
        rw [pick_ofFn, pick_ofFn, U.par] at l2
        simp only [l2, bind, Except.bind, asVec_ofFn]) v w M.par.s z hz
  obtain ⟨f1, f2⟩ := U.fwd _ (by rw [hn]; simp) _ hY
  rw [pick_ofFn] at f2
  refine ⟨by rw [hn]; simp, f1, ?_⟩
  change ((asVec _ (List.ofFn _)) >>= _) = _
  rw [asVec_ofFn]
  change (skrockStep co M.par.s M.par.delta _ (fun i => v (e M'.nparams i)) (fun i => w (e M'.nparams i)) >>= _) = _
  rw [key]
  simp only [bind, Except.bind, f2, pick_ofFn]

/-- The start argument of the part. -/
def StartPoint.part {k k' : ℕ} (e : Fin k' → Fin k) : StartPoint → StartPoint
  | .array1 v => .array1 (pick e v)
  | sp => sp

theorem PartOf.initialSample (R : Rng) (r : R.σ) (sp : StartPoint) (x : List ℂ × List ℂ × R.σ)
    (h : Pxmcmc.initialSample M R r sp = .ok x) : x.1.length = M.nparams ∧ x.2.1.length = n ∧
    Pxmcmc.initialSample M' (R.part len e) r (sp.part (e M'.nparams)) = .ok (pick (e M'.nparams) x.1, pick d x.2.1, x.2.2) := by
  unfold Pxmcmc.initialSample at h ⊢
  obtain ⟨y, hy, h⟩ := bind_ok h
  obtain ⟨Y, hY, h⟩ := bind_ok h
  obtain rfl := Except.ok.inj h
  have hs : y.1.length = M.nparams ∧ startVector M' (R.part len e) r (sp.part (e M'.nparams)) = .ok (pick (e M'.nparams) y.1, y.2) := by
    unfold startVector at hy ⊢
    cases sp with
    | none =>
      simp only [StartPoint.part] at hy ⊢
      obtain rfl := Except.ok.inj hy
      refine ⟨noise_len _ _ _ _ _, ?_⟩
      rw [U.par, (noise_part R len e M.par.complex r M'.nparams).2, U.nparams]
      rfl
    | array1 v =>
      simp only [StartPoint.part] at hy ⊢
      split at hy
      · rename_i hl
        obtain rfl := Except.ok.inj hy
        exact ⟨hl, by rw [if_pos (pick_length _ _)]⟩
      · cases hy
    | arrayNd k h => cases hy
    | other => cases hy
  obtain ⟨f1, f2⟩ := U.fwd _ hs.1 _ hY
  refine ⟨hs.1, f1, ?_⟩
  rw [hs.2]
  change (M'.F.forward _ >>= _) = _
  rw [f2]
  rfl

/-! ## Bookkeeping -/

theorem PartOf.shape : (Pxmcmc.initArrays M').SameShape (Pxmcmc.initArrays M) := by
  constructor <;> simp only [Pxmcmc.initArrays, U.par] <;> split <;> simp

omit U in
/-- Whether a progress line can be printed depends only on which arrays there are and on their lengths. -/
theorem progressArrays_shape (M : Sampler n) (M' : Sampler n') {R R' : Rng} {A0 B0 : Arrays} (hAB : B0.SameShape A0) {s : St R} {t : St R'}
    (hj : t.j = s.j) {evs : List Event} (hs : Pxmcmc.progressArrays M A0 s = .ok evs) : ∃ evs', Pxmcmc.progressArrays M' B0 t = .ok evs' := by
  have key : ∀ (o o' : Option (List ℝ)) (x : List ℝ) (a : ℝ) (i : ℤ), o'.map List.length = o.map List.length → attrArr o = .ok x →
      pyGet x i = .ok a → ∃ x' a', attrArr o' = .ok x' ∧ pyGet x' i = .ok a' := by
    intro o o' x a i ho hx ha
    cases o with
    | none => cases hx
    | some y =>
      cases hx
      cases o' with
      | none => cases ho
      | some z =>
        have hl : z.length = x.length := Option.some.inj ho
        unfold pyGet at ha
        simp only at ha
        by_cases h0 : 0 ≤ (if i < 0 then (x.length : ℤ) + i else i)
        · rw [if_pos h0] at ha
          cases hv : x[(if i < 0 then (x.length : ℤ) + i else i).toNat]? with
          | none => rw [hv] at ha; cases ha
          | some v =>
            obtain ⟨hlt, -⟩ := List.getElem?_eq_some_iff.mp hv
            obtain ⟨w, hw⟩ : ∃ w, z[(if i < 0 then (x.length : ℤ) + i else i).toNat]? = some w :=
              ⟨_, List.getElem?_eq_getElem (by omega)⟩
            refine ⟨z, w, rfl, ?_⟩
            unfold pyGet
            simp only
            rw [hl, if_pos h0, hw]
        · rw [if_neg h0] at ha
          cases ha
  have hA := Arrays.applyAll_shape A0 s.ev
  have hB := Arrays.applyAll_shape B0 t.ev
  unfold Pxmcmc.progressArrays at hs ⊢
  obtain ⟨x1, h1, hs⟩ := bind_ok hs
  obtain ⟨a1, g1, hs⟩ := bind_ok hs
  obtain ⟨x2, h2, hs⟩ := bind_ok hs
  obtain ⟨a2, g2, hs⟩ := bind_ok hs
  obtain ⟨x3, h3, hs⟩ := bind_ok hs
  obtain ⟨a3, g3, hs⟩ := bind_ok hs
  obtain ⟨y1, b1, i1, k1⟩ := key _ _ _ _ _ (hB.logPi.trans (hAB.logPi.trans hA.logPi.symm)) h1 g1
  obtain ⟨y2, b2, i2, k2⟩ := key _ _ _ _ _ (hB.L2s.trans (hAB.L2s.trans hA.L2s.symm)) h2 g2
  obtain ⟨y3, b3, i3, k3⟩ := key _ _ _ _ _ (hB.priors.trans (hAB.priors.trans hA.priors.symm)) h3 g3
  rw [i1, hj]
  simp only [bind, Except.bind, k1, i2, k2, i3, k3]
  exact ⟨_, rfl⟩

/-- Equal counters, the samples of the part. -/
def PartSt {R : Rng} (e : ∀ k, Fin k → Fin (len k)) (d : Fin n' → Fin n) (M : Sampler n) (M' : Sampler n') (s : St R) (t : St (R.part len e)) : Prop :=
  t.i = s.i ∧ t.j = s.j ∧ t.cur = s.cur.part e M'.nparams d ∧ s.cur.X.length = M.nparams ∧ s.cur.preds.length = n

/-- One iteration of MYULA or SKROCK: the part follows. -/
theorem PartOf.gen {R : Rng} {A0 B0 : Arrays} (hB : B0.Shaped M'.par.nsamples) (step : Cur R → Py (Cur R))
    (step' : Cur (R.part len e) → Py (Cur (R.part len e)))
    (hstep : ∀ x y : Cur R, x.X.length = M.nparams → x.preds.length = n → step x = .ok y →
      y.X.length = M.nparams ∧ y.preds.length = n ∧ step' (x.part e M'.nparams d) = .ok (y.part e M'.nparams d))
    (prog : St R → Py (List Event)) (prog' : St (R.part len e) → Py (List Event))
    (hp : ∀ s t evs, t.i = s.i → t.j = s.j → prog s = .ok evs → ∃ evs', prog' t = .ok evs') (s s' : St R) (t : St (R.part len e))
    (h : PartSt e d M M' s t) (hc : loopCond M s = true) (hs : genBody M A0 step prog s = .ok s') :
    ∃ t', genBody M' B0 step' prog' t = .ok t' ∧ PartSt e d M M' s' t' := by
  obtain ⟨hi, hj, hcur, hX, hY⟩ := h
  have hjn : t.j < M'.par.nsamples := by
    rw [hj, U.par]
    simpa [loopCond] using hc
  unfold genBody at hs ⊢
  obtain ⟨x, hx, hs⟩ := bind_ok hs
  obtain ⟨x1, x2, x3⟩ := hstep _ _ hX hY hx
  rw [hcur, x3]
  unfold genBook at hs
  obtain ⟨s1, hs1, hs⟩ := bind_ok hs
  obtain ⟨evs, he, hs⟩ := bind_ok hs
  obtain rfl := Except.ok.inj hs
  have mid : ∃ t1, (if (t.i : ℤ) ≥ M'.par.nburn ∧ thinned M'.par t.i then recordRow M' B0 { t with cur := x.part e M'.nparams d }
      else .ok { t with cur := x.part e M'.nparams d } : Py (St (R.part len e))) = .ok t1 ∧ PartSt e d M M' s1 t1 := by
    by_cases hsv : (s.i : ℤ) ≥ M.par.nburn ∧ thinned M.par s.i
    · rw [if_pos (by rw [U.par, hi]; exact hsv)]
      rw [if_pos hsv] at hs1
      obtain ⟨l, hl, rfl⟩ := recordRow_ok M A0 hs1
      obtain ⟨l', hl'⟩ := U.logpi _ _ x1 x2 _ hl
      have hsh := Arrays.Shaped.of_same (Arrays.applyAll_shape B0 t.ev) hB
      obtain ⟨ev, hev⟩ := tracking_total M' (A := B0.applyAll t.ev) (j := t.j) hjn hsh.logPi hsh.L2s hsh.priors hsh.preds hsh.chain
        (pick (e M'.nparams) x.X) (pick d x.preds) (pick_length _ _) (pick_length _ _) l'
      refine ⟨⟨t.i, t.j + 1, x.part e M'.nparams d, t.ev ++ ev⟩, ?_, hi, by show t.j + 1 = s.j + 1; rw [hj], rfl, x1, x2⟩
      unfold recordRow
      simp only [Cur.part, hl', bind, Except.bind, hev]
    · rw [if_neg (by rw [U.par, hi]; exact hsv)]
      rw [if_neg hsv] at hs1
      obtain rfl := Except.ok.inj hs1
      exact ⟨_, rfl, hi, hj, rfl, x1, x2⟩
  obtain ⟨t1, ht1, g1, g2, g3, g4, g5⟩ := mid
  obtain ⟨evs', he'⟩ := hp s1 t1 evs g1 g2 he
  refine ⟨{ t1 with ev := t1.ev ++ evs', i := t1.i + 1 }, ?_, by show t1.i + 1 = s1.i + 1; rw [g1], g2, g3, g4, g5⟩
  unfold genBook
  change ((if (t.i : ℤ) ≥ M'.par.nburn ∧ thinned M'.par t.i then recordRow M' B0 { t with cur := x.part e M'.nparams d }
    else .ok { t with cur := x.part e M'.nparams d } : Py (St (R.part len e))) >>= _) = _
  rw [ht1]
  change (prog' t1 >>= _) = _
  rw [he']
  rfl

theorem PartOf.myulaProg {R : Rng} (s : St R) (t : St (R.part len e)) (evs : List Event) (hi : t.i = s.i) (hj : t.j = s.j)
    (h : Pxmcmc.myulaProg M (Pxmcmc.initArrays M) s = .ok evs) : ∃ evs', Pxmcmc.myulaProg M' (Pxmcmc.initArrays M') t = .ok evs' := by
  unfold Pxmcmc.myulaProg at h ⊢
  rw [U.par, hi]
  split
  · rename_i h1
    rw [if_pos h1] at h
    split
    · rename_i h2
      rw [if_pos h2] at h
      exact progressArrays_shape M M' U.shape hj h
    · exact ⟨_, rfl⟩
  · exact ⟨_, rfl⟩

theorem PartOf.skrockProg {R : Rng} (s : St R) (t : St (R.part len e)) (evs : List Event) (hi : t.i = s.i) (hj : t.j = s.j)
    (h : Pxmcmc.skrockProg M (Pxmcmc.initArrays M) s = .ok evs) : ∃ evs', Pxmcmc.skrockProg M' (Pxmcmc.initArrays M') t = .ok evs' := by
  unfold Pxmcmc.skrockProg at h ⊢
  rw [U.par, hi]
  split
  · rename_i h2
    rw [if_pos h2] at h
    exact progressArrays_shape M M' U.shape hj h
  · exact ⟨_, rfl⟩

end

/-! ## Two parts -/

/-- If two loops can follow every step of a third, they return when it does. -/
theorem follows_both {σ τ υ : Type} {cond : σ → Bool} {body : σ → Py σ} {cond₁ : τ → Bool} {body₁ : τ → Py τ} {cond₂ : υ → Bool}
    {body₂ : υ → Py υ} (Rel : σ → τ → υ → Prop) (hcond : ∀ s t u, Rel s t u → cond s = cond₁ t ∧ cond s = cond₂ u)
    (hstep : ∀ s t u s', Rel s t u → cond s = true → body s = .ok s' → ∃ t' u', body₁ t = .ok t' ∧ body₂ u = .ok u' ∧ Rel s' t' u')
    (fuel : ℕ) (s0 : σ) (t0 : τ) (u0 : υ) (h0 : Rel s0 t0 u0) (r : σ) (h : whileFuel cond body fuel s0 = .ok (some r)) :
    ∃ t u, whileFuel cond₁ body₁ fuel t0 = .ok (some t) ∧ whileFuel cond₂ body₂ fuel u0 = .ok (some u) ∧ Rel r t u := by
  obtain ⟨m, hm, hr, hc⟩ := whileFuel_some h
  have key : ∀ k s, Reach cond body s0 k s → ∃ t u, Reach cond₁ body₁ t0 k t ∧ Reach cond₂ body₂ u0 k u ∧ Rel s t u := by
    intro k s hk
    induction hk with
    | refl => exact ⟨t0, u0, .refl, .refl, h0⟩
    | step _ c1 b1 ih =>
      obtain ⟨t, u, ht, hu, hrel⟩ := ih
      obtain ⟨t', u', hb1, hb2, hrel'⟩ := hstep _ _ _ _ hrel c1 b1
      obtain ⟨e1, e2⟩ := hcond _ _ _ hrel
      exact ⟨t', u', .step ht (by rw [← e1]; exact c1) hb1, .step hu (by rw [← e2]; exact c1) hb2, hrel'⟩
  obtain ⟨t, u, ht, hu, hrel⟩ := key m r hr
  obtain ⟨e1, e2⟩ := hcond _ _ _ hrel
  have r1 := ht.returns (by rw [← e1]; exact hc) (fuel - m)
  have r2 := hu.returns (by rw [← e2]; exact hc) (fuel - m)
  rw [Nat.add_sub_cancel' hm] at r1 r2
  exact ⟨t, u, r1, r2, hrel⟩

theorem map₂_set {α : Type} (f : α → α → α) (o o' : Option (List α)) (h : o'.map List.length = o.map List.length) (j : ℕ) (v w : α) :
    (Option.map₂ (List.zipWith f) o o').map (fun l => l.set j (f v w)) =
      Option.map₂ (List.zipWith f) (o.map fun l => l.set j v) (o'.map fun l => l.set j w) := by
  cases o with
  | none => rfl
  | some a =>
    cases o' with
    | none => rfl
    | some b =>
      have hl : b.length = a.length := Option.some.inj h
      simp only [Option.map₂_some_some, Option.map_some, Option.some.injEq]
      apply List.ext_getElem
      · simp
      · intro i h1 h2
        simp only [List.getElem_set, List.getElem_zipWith]
        split <;> rfl

theorem Arrays.join_setRow {A B : Arrays} (h : B.SameShape A) (j : ℕ) (r a b : Row) (h1 : r.logPi = a.logPi + b.logPi) (h2 : r.L2 = a.L2 + b.L2)
    (h3 : r.prior = a.prior + b.prior) (h4 : r.preds = a.preds ++ b.preds) (h5 : r.chain = a.chain ++ b.chain) :
    (A.join B).setRow j r = (A.setRow j a).join (B.setRow j b) := by
  unfold Arrays.join Arrays.setRow
  simp only [h1, h2, h3, h4, h5]
  rw [map₂_set _ _ _ h.logPi, map₂_set _ _ _ h.L2s, map₂_set _ _ _ h.priors, map₂_set _ _ _ h.preds, map₂_set _ _ _ h.chain]

/-- The sampler `M` treats the problems of `M₁` and `M₂` together. -/
structure Joined {n₁ n₂ : ℕ} (M₁ : Sampler n₁) (M₂ : Sampler n₂) (M : Sampler (n₁ + n₂)) : Prop where
  left : PartOf (fun k => k + M₂.nparams) (fun _ => Fin.castAdd M₂.nparams) (Fin.castAdd n₂) M M₁
  right : PartOf (fun k => M₁.nparams + k) (fun _ => Fin.natAdd M₁.nparams) (Fin.natAdd n₁) M M₂
  sum : ∀ X Y l l₁ l₂, X.length = M.nparams → Y.length = n₁ + n₂ → Pxmcmc.logpi M.F M.P M.par.mu X Y = .ok l →
    Pxmcmc.logpi M₁.F M₁.P M₁.par.mu (pick (Fin.castAdd M₂.nparams : Fin M₁.nparams → _) X) (pick (Fin.castAdd n₂ : Fin n₁ → _) Y) = .ok l₁ →
    Pxmcmc.logpi M₂.F M₂.P M₂.par.mu (pick (Fin.natAdd M₁.nparams : Fin M₂.nparams → _) X) (pick (Fin.natAdd n₁ : Fin n₂ → _) Y) = .ok l₂ →
    l = l₁ + l₂

section
variable {n₁ n₂ : ℕ} {M₁ : Sampler n₁} {M₂ : Sampler n₂} {M : Sampler (n₁ + n₂)} (J : Joined M₁ M₂ M)
include J

theorem Joined.shape : (Pxmcmc.initArrays M₂).SameShape (Pxmcmc.initArrays M₁) := by
  constructor <;> simp only [Pxmcmc.initArrays, J.left.par, J.right.par] <;> split <;> simp

theorem Joined.initArrays : Pxmcmc.initArrays M = (Pxmcmc.initArrays M₁).join (Pxmcmc.initArrays M₂) := by
  unfold Pxmcmc.initArrays Arrays.join
  simp only [J.left.par, J.right.par, J.left.nparams]
  congr 1 <;> split <;> simp [List.replicate_append_replicate]

/-- Equal counters, the samples of both parts, joined arrays. -/
def JoinSt {R : Rng} (M₁ : Sampler n₁) (M₂ : Sampler n₂) (M : Sampler (n₁ + n₂)) (s : St R) (t : St (R.left M₂.nparams)) (u : St (R.right M₁.nparams)) : Prop :=
  PartSt (len := fun k => k + M₂.nparams) (fun _ => Fin.castAdd M₂.nparams) (Fin.castAdd n₂) M M₁ s t ∧
  PartSt (len := fun k => M₁.nparams + k) (fun _ => Fin.natAdd M₁.nparams) (Fin.natAdd n₁) M M₂ s u ∧
  (Pxmcmc.initArrays M).applyAll s.ev = ((Pxmcmc.initArrays M₁).applyAll t.ev).join ((Pxmcmc.initArrays M₂).applyAll u.ev)

theorem Joined.row (X Y : List ℂ) (hX : X.length = M.nparams) (hY : Y.length = n₁ + n₂) (l₁ l₂ : ℂ × ℂ × ℝ) :
    (mkRow M X Y (l₁ + l₂)).logPi = l₁.1.re + l₂.1.re ∧ (mkRow M X Y (l₁ + l₂)).L2 = l₁.2.1.re + l₂.2.1.re ∧
    (mkRow M X Y (l₁ + l₂)).prior = l₁.2.2 + l₂.2.2 ∧
    (mkRow M X Y (l₁ + l₂)).preds = (mkRow M₁ (pick (Fin.castAdd M₂.nparams : Fin M₁.nparams → _) X) (pick (Fin.castAdd n₂ : Fin n₁ → _) Y) l₁).preds ++
      (mkRow M₂ (pick (Fin.natAdd M₁.nparams : Fin M₂.nparams → _) X) (pick (Fin.natAdd n₁ : Fin n₂ → _) Y) l₂).preds ∧
    (mkRow M X Y (l₁ + l₂)).chain = (mkRow M₁ (pick (Fin.castAdd M₂.nparams : Fin M₁.nparams → _) X) (pick (Fin.castAdd n₂ : Fin n₁ → _) Y) l₁).chain ++
      (mkRow M₂ (pick (Fin.natAdd M₁.nparams : Fin M₂.nparams → _) X) (pick (Fin.natAdd n₁ : Fin n₂ → _) Y) l₂).chain := by
  refine ⟨by simp [mkRow], by simp [mkRow], by simp [mkRow], ?_, ?_⟩
  · simp only [mkRow, rowAssign, hY, pick_length, if_true, ← List.map_append, pick_append Y hY]
  · have hX' : X.length = M₁.nparams + M₂.nparams := hX.trans J.left.nparams
    simp only [mkRow, rowAssign, hX, pick_length, if_true, J.left.par, J.right.par, ← List.map_append, pick_append X hX']

theorem Joined.gen {R : Rng} (step : Cur R → Py (Cur R)) (step₁ : Cur (R.left M₂.nparams) → Py (Cur (R.left M₂.nparams)))
    (step₂ : Cur (R.right M₁.nparams) → Py (Cur (R.right M₁.nparams)))
    (h₁ : ∀ x y : Cur R, x.X.length = M.nparams → x.preds.length = n₁ + n₂ → step x = .ok y → y.X.length = M.nparams ∧ y.preds.length = n₁ + n₂ ∧
      step₁ (x.part (len := fun k => k + M₂.nparams) (fun _ => Fin.castAdd M₂.nparams) M₁.nparams (Fin.castAdd n₂ : Fin n₁ → Fin (n₁ + n₂))) =
        .ok (y.part (len := fun k => k + M₂.nparams) (fun _ => Fin.castAdd M₂.nparams) M₁.nparams (Fin.castAdd n₂ : Fin n₁ → Fin (n₁ + n₂))))
    (h₂ : ∀ x y : Cur R, x.X.length = M.nparams → x.preds.length = n₁ + n₂ → step x = .ok y → y.X.length = M.nparams ∧ y.preds.length = n₁ + n₂ ∧
      step₂ (x.part (len := fun k => M₁.nparams + k) (fun _ => Fin.natAdd M₁.nparams) M₂.nparams (Fin.natAdd n₁ : Fin n₂ → Fin (n₁ + n₂))) =
        .ok (y.part (len := fun k => M₁.nparams + k) (fun _ => Fin.natAdd M₁.nparams) M₂.nparams (Fin.natAdd n₁ : Fin n₂ → Fin (n₁ + n₂))))
    (prog : St R → Py (List Event)) (prog₁ : St (R.left M₂.nparams) → Py (List Event)) (prog₂ : St (R.right M₁.nparams) → Py (List Event))
    (hw : NoWrites prog) (hw₁ : NoWrites prog₁) (hw₂ : NoWrites prog₂)
    (hp₁ : ∀ (s : St R) (t : St (R.left M₂.nparams)) evs, t.i = s.i → t.j = s.j → prog s = .ok evs → ∃ evs', prog₁ t = .ok evs')
    (hp₂ : ∀ (s : St R) (t : St (R.right M₁.nparams)) evs, t.i = s.i → t.j = s.j → prog s = .ok evs → ∃ evs', prog₂ t = .ok evs')
    (s s' : St R) (t : St (R.left M₂.nparams)) (u : St (R.right M₁.nparams)) (h : JoinSt M₁ M₂ M s t u) (hc : loopCond M s = true)
    (hs : genBody M (Pxmcmc.initArrays M) step prog s = .ok s') :
    ∃ t' u', genBody M₁ (Pxmcmc.initArrays M₁) step₁ prog₁ t = .ok t' ∧ genBody M₂ (Pxmcmc.initArrays M₂) step₂ prog₂ u = .ok u' ∧
      JoinSt M₁ M₂ M s' t' u' := by
  obtain ⟨hl, hr, hA⟩ := h
  obtain ⟨t', ht, gt⟩ := J.left.gen (initArrays_shaped M₁) step step₁ h₁ prog prog₁ hp₁ s s' t hl hc hs
  obtain ⟨u', hu, gu⟩ := J.right.gen (initArrays_shaped M₂) step step₂ h₂ prog prog₂ hp₂ s s' u hr hc hs
  refine ⟨t', u', ht, hu, gt, gu, ?_⟩
  obtain ⟨-, -, a3, a4⟩ := genBody_ok M _ step prog hw s s' hs
  obtain ⟨-, -, b3, b4⟩ := genBody_ok M₁ _ step₁ prog₁ hw₁ t t' ht
  obtain ⟨-, -, c3, c4⟩ := genBody_ok M₂ _ step₂ prog₂ hw₂ u u' hu
  have k₁ : ((t.i : ℤ) ≥ M₁.par.nburn ∧ thinned M₁.par t.i) ↔ ((s.i : ℤ) ≥ M.par.nburn ∧ thinned M.par s.i) := by rw [J.left.par, hl.1]
  have k₂ : ((u.i : ℤ) ≥ M₂.par.nburn ∧ thinned M₂.par u.i) ↔ ((s.i : ℤ) ≥ M.par.nburn ∧ thinned M.par s.i) := by rw [J.right.par, hr.1]
  by_cases hsv : (s.i : ℤ) ≥ M.par.nburn ∧ thinned M.par s.i
  · obtain ⟨l, e1, -, f1⟩ := a3 hsv
    obtain ⟨l₁, e2, -, f2⟩ := b3 (k₁.mpr hsv)
    obtain ⟨l₂, e3, -, f3⟩ := c3 (k₂.mpr hsv)
    rw [gt.2.2.1] at e2 f2
    rw [gu.2.2.1] at e3 f3
    obtain rfl := J.sum _ _ l l₁ l₂ gt.2.2.2.1 gt.2.2.2.2 e1 e2 e3
    obtain ⟨r1, r2, r3, r4, r5⟩ := J.row _ _ gt.2.2.2.1 gt.2.2.2.2 l₁ l₂
    rw [f1, f2, f3, hA, hl.2.1, hr.2.1]
    refine Arrays.join_setRow ?_ _ _ _ _ r1 r2 r3 r4 r5
    have s1 := Arrays.applyAll_shape (Pxmcmc.initArrays M₁) t.ev
    have s2 := Arrays.applyAll_shape (Pxmcmc.initArrays M₂) u.ev
    have s3 := J.shape
    exact ⟨s2.logPi.trans (s3.logPi.trans s1.logPi.symm), s2.L2s.trans (s3.L2s.trans s1.L2s.symm), s2.priors.trans (s3.priors.trans s1.priors.symm),
      s2.preds.trans (s3.preds.trans s1.preds.symm), s2.chain.trans (s3.chain.trans s1.chain.symm)⟩
  · rw [(a4 hsv).2, (b4 (fun h => hsv (k₁.mp h))).2, (c4 (fun h => hsv (k₂.mp h))).2, hA]

theorem Joined.myulaRun (R : Rng) (r : R.σ) (sp : StartPoint) (fuel : ℕ) (st : St R)
    (h : Pxmcmc.myulaRun M R (Pxmcmc.initArrays M) r sp fuel = .ok (some st)) :
    ∃ st₁ st₂,
      Pxmcmc.myulaRun M₁ (R.left M₂.nparams) (Pxmcmc.initArrays M₁) r (sp.part (Fin.castAdd M₂.nparams : Fin M₁.nparams → _)) fuel = .ok (some st₁) ∧
      Pxmcmc.myulaRun M₂ (R.right M₁.nparams) (Pxmcmc.initArrays M₂) r (sp.part (Fin.natAdd M₁.nparams : Fin M₂.nparams → _)) fuel = .ok (some st₂) ∧
      st₁.i = st.i ∧ st₂.i = st.i ∧ st.cur.X = st₁.cur.X ++ st₂.cur.X ∧
      (Pxmcmc.initArrays M).applyAll st.ev = ((Pxmcmc.initArrays M₁).applyAll st₁.ev).join ((Pxmcmc.initArrays M₂).applyAll st₂.ev) := by
  unfold Pxmcmc.myulaRun at h ⊢
  obtain ⟨x, hx, h⟩ := bind_ok h
  obtain ⟨res, hres, h⟩ := bind_ok h
  cases res with
  | none => cases Except.ok.inj h
  | some s =>
    obtain rfl := Option.some.inj (Except.ok.inj h)
    rw [myulaBody_eq] at hres
    obtain ⟨i1, i2, i3⟩ := J.left.initialSample R r sp x hx
    obtain ⟨-, -, i4⟩ := J.right.initialSample R r sp x hx
    obtain ⟨t, u, ht, hu, g1, g2, g3⟩ := follows_both (JoinSt M₁ M₂ M) (cond := loopCond M) (cond₁ := loopCond M₁) (cond₂ := loopCond M₂)
      (body₁ := genBody M₁ (Pxmcmc.initArrays M₁) (Pxmcmc.myulaStep M₁ (R.left M₂.nparams)) (Pxmcmc.myulaProg M₁ (Pxmcmc.initArrays M₁)))
      (body₂ := genBody M₂ (Pxmcmc.initArrays M₂) (Pxmcmc.myulaStep M₂ (R.right M₁.nparams)) (Pxmcmc.myulaProg M₂ (Pxmcmc.initArrays M₂)))
      (fun s t u hr => by
        constructor
        · show decide _ = decide _; rw [hr.1.2.1, J.left.par]
        · show decide _ = decide _; rw [hr.2.1.2.1, J.right.par])
      (fun s t u s' hr hc hb => J.gen _ _ _ (fun x y => J.left.myulaStep R x y) (fun x y => J.right.myulaStep R x y) _ _ _
        (myulaProg_noWrites M _) (myulaProg_noWrites M₁ _) (myulaProg_noWrites M₂ _) J.left.myulaProg J.right.myulaProg s s' t u hr hc hb)
      fuel ⟨0, 0, ⟨x.1, x.2.1, x.2.2⟩, []⟩
      ⟨0, 0, Cur.part (len := fun k => k + M₂.nparams) (fun _ => Fin.castAdd M₂.nparams) M₁.nparams (Fin.castAdd n₂ : Fin n₁ → Fin (n₁ + n₂)) ⟨x.1, x.2.1, x.2.2⟩, []⟩
      ⟨0, 0, Cur.part (len := fun k => M₁.nparams + k) (fun _ => Fin.natAdd M₁.nparams) M₂.nparams (Fin.natAdd n₁ : Fin n₂ → Fin (n₁ + n₂)) ⟨x.1, x.2.1, x.2.2⟩, []⟩
      ⟨⟨rfl, rfl, rfl, i1, i2⟩, ⟨rfl, rfl, rfl, i1, i2⟩, J.initArrays⟩ s hres
    refine ⟨{ t with ev := t.ev ++ [Event.done] }, { u with ev := u.ev ++ [Event.done] }, ?_, ?_, g1.1, g2.1, ?_, ?_⟩
    · erw [i3]
      rw [myulaBody_eq]
      change (whileFuel _ _ _ _ >>= _) = _
      erw [ht]
      rfl
    · erw [i4]
      rw [myulaBody_eq]
      change (whileFuel _ _ _ _ >>= _) = _
      erw [hu]
      rfl
    · show s.cur.X = t.cur.X ++ u.cur.X
      rw [g1.2.2.1, g2.2.2.1]
      exact (pick_append _ (g1.2.2.2.1.trans J.left.nparams)).symm
    · rw [applyAll_append, applyAll_append, applyAll_append]
      exact g3

theorem Joined.skrockRun (R : Rng) (r : R.σ) (sp : StartPoint) (fuel : ℕ) (st : St R)
    (h : Pxmcmc.skrockRun M R (Pxmcmc.initArrays M) r sp fuel = .ok (some st)) :
    ∃ st₁ st₂,
      Pxmcmc.skrockRun M₁ (R.left M₂.nparams) (Pxmcmc.initArrays M₁) r (sp.part (Fin.castAdd M₂.nparams : Fin M₁.nparams → _)) fuel = .ok (some st₁) ∧
      Pxmcmc.skrockRun M₂ (R.right M₁.nparams) (Pxmcmc.initArrays M₂) r (sp.part (Fin.natAdd M₁.nparams : Fin M₂.nparams → _)) fuel = .ok (some st₂) ∧
      st₁.i = st.i ∧ st₂.i = st.i ∧ st.cur.X = st₁.cur.X ++ st₂.cur.X ∧
      (Pxmcmc.initArrays M).applyAll st.ev = ((Pxmcmc.initArrays M₁).applyAll st₁.ev).join ((Pxmcmc.initArrays M₂).applyAll st₂.ev) := by
  unfold Pxmcmc.skrockRun at h ⊢
  obtain ⟨co, hco, h⟩ := bind_ok h
  obtain ⟨x, hx, h⟩ := bind_ok h
  obtain ⟨res, hres, h⟩ := bind_ok h
  cases res with
  | none => cases Except.ok.inj h
  | some s =>
    obtain rfl := Option.some.inj (Except.ok.inj h)
    rw [skrockBody_eq] at hres
    obtain ⟨i1, i2, i3⟩ := J.left.initialSample R r sp x hx
    obtain ⟨-, -, i4⟩ := J.right.initialSample R r sp x hx
    obtain ⟨t, u, ht, hu, g1, g2, g3⟩ := follows_both (JoinSt M₁ M₂ M) (cond := loopCond M) (cond₁ := loopCond M₁) (cond₂ := loopCond M₂)
      (body₁ := genBody M₁ (Pxmcmc.initArrays M₁) (Pxmcmc.skrockTransition M₁ (R.left M₂.nparams) co) (Pxmcmc.skrockProg M₁ (Pxmcmc.initArrays M₁)))
      (body₂ := genBody M₂ (Pxmcmc.initArrays M₂) (Pxmcmc.skrockTransition M₂ (R.right M₁.nparams) co) (Pxmcmc.skrockProg M₂ (Pxmcmc.initArrays M₂)))
      (fun s t u hr => by
        constructor
        · show decide _ = decide _; rw [hr.1.2.1, J.left.par]
        · show decide _ = decide _; rw [hr.2.1.2.1, J.right.par])
      (fun s t u s' hr hc hb => J.gen _ _ _ (fun x y hX _ => J.left.skrockTransition R co x y hX)
        (fun x y hX _ => J.right.skrockTransition R co x y hX) _ _ _
        (skrockProg_noWrites M _) (skrockProg_noWrites M₁ _) (skrockProg_noWrites M₂ _) J.left.skrockProg J.right.skrockProg s s' t u hr hc hb)
      fuel ⟨0, 0, ⟨x.1, x.2.1, x.2.2⟩, []⟩
      ⟨0, 0, Cur.part (len := fun k => k + M₂.nparams) (fun _ => Fin.castAdd M₂.nparams) M₁.nparams (Fin.castAdd n₂ : Fin n₁ → Fin (n₁ + n₂)) ⟨x.1, x.2.1, x.2.2⟩, []⟩
      ⟨0, 0, Cur.part (len := fun k => M₁.nparams + k) (fun _ => Fin.natAdd M₁.nparams) M₂.nparams (Fin.natAdd n₁ : Fin n₂ → Fin (n₁ + n₂)) ⟨x.1, x.2.1, x.2.2⟩, []⟩
      ⟨⟨rfl, rfl, rfl, i1, i2⟩, ⟨rfl, rfl, rfl, i1, i2⟩, J.initArrays⟩ s hres
    refine ⟨{ t with ev := t.ev ++ [Event.done] }, { u with ev := u.ev ++ [Event.done] }, ?_, ?_, g1.1, g2.1, ?_, ?_⟩
    · rw [J.left.par, hco]
      change (Pxmcmc.initialSample M₁ (R.left M₂.nparams) r _ >>= _) = _
      erw [i3]
      rw [skrockBody_eq]
      change (whileFuel _ _ _ _ >>= _) = _
      erw [ht]
      rfl
    · rw [J.right.par, hco]
      change (Pxmcmc.initialSample M₂ (R.right M₁.nparams) r _ >>= _) = _
      erw [i4]
      rw [skrockBody_eq]
      change (whileFuel _ _ _ _ >>= _) = _
      erw [hu]
      rfl
    · show s.cur.X = t.cur.X ++ u.cur.X
      rw [g1.2.2.1, g2.2.2.1]
      exact (pick_append _ (g1.2.2.2.1.trans J.left.nparams)).symm
    · rw [applyAll_append, applyAll_append, applyAll_append]
      exact g3

end

end Pxmcmc
