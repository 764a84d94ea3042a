import Verif.Props.Mala
import Verif.Props.Measurements
import Verif.Props.MyulaComplex
import Verif.Props.ComplexDenoise

/-! # Property C130: saved rows can be recomputed from the saved sample -/

namespace Pxmcmc
variable {n p : ℕ}

/-- The entries of `l` can be stored without loss in an array of the sampler's dtype. -/
def FitsDtype (cplx : Bool) (l : List ℂ) : Prop := cplx = true ∨ ∀ z ∈ l, z.im = 0

theorem fitsDtype_ofFn (cplx : Bool) (x : Fin p → ℂ) : FitsDtype cplx (List.ofFn x) ↔ cplx = true ∨ ∀ i, (x i).im = 0 := by
  unfold FitsDtype
  simp [List.mem_ofFn]

/-- The operators return arrays of the right length; with `complex=False` they return real arrays for real arguments. -/
structure KeepsDtype (M : Sampler n) : Prop where
  forward : ∀ X Y, X.length = M.nparams → FitsDtype M.par.complex X → M.F.forward X = .ok Y → Y.length = n ∧ FitsDtype M.par.complex Y
  gradg : ∀ Y g, Y.length = n → FitsDtype M.par.complex Y → M.F.calcGradg Y = .ok g → g.length = M.nparams ∧ FitsDtype M.par.complex g
  proxf : ∀ X Y, X.length = M.nparams → FitsDtype M.par.complex X → M.P.proxf X = .ok Y → Y.length = M.nparams ∧ FitsDtype M.par.complex Y

/-- The saved values can be recomputed from the saved sample alone. -/
structure Recomputable (M : Sampler n) (row : Row) : Prop where
  ex : ∃ preds l, M.F.forward row.chain = .ok preds ∧ logpi M.F M.P M.par.mu row.chain preds = .ok l ∧ row.logPi = l.1.re ∧
    row.L2 = l.2.1.re ∧ row.prior = l.2.2 ∧ row.preds = preds.map (fun z => (z.re : ℂ)) ∧ (M.par.complex = false → row.preds = preds)

/-- A current sample that the arrays can hold. -/
def Holds (M : Sampler n) (X preds : List ℂ) : Prop :=
  X.length = M.nparams ∧ FitsDtype M.par.complex X ∧ preds.length = n ∧ FitsDtype M.par.complex preds

theorem store_fits (cplx : Bool) (X : List ℂ) (h : FitsDtype cplx X) : X.map (store cplx) = X := by
  have : ∀ z ∈ X, store cplx z = z := by
    intro z hz
    unfold store
    split
    · rfl
    · rcases h with h | h
      · contradiction
      · exact Complex.ext rfl (h z hz).symm
  exact (List.map_congr_left this).trans (List.map_id X)

theorem recomputable_mkRow (M : Sampler n) (X preds : List ℂ) (l : ℂ × ℂ × ℝ) (hh : Holds M X preds) (hf : M.F.forward X = .ok preds)
    (hl : logpi M.F M.P M.par.mu X preds = .ok l) : Recomputable M (mkRow M X preds l) := by
  obtain ⟨h1, h2, h3, h4⟩ := hh
  have hc : (mkRow M X preds l).chain = X := by
    simp only [mkRow, rowAssign, h1, if_true]
    exact store_fits _ _ h2
  have hp : (mkRow M X preds l).preds = preds.map (store false) := by
    simp only [mkRow, rowAssign, h3, if_true]
  refine ⟨preds, l, by rw [hc]; exact hf, by rw [hc]; exact hl, rfl, rfl, rfl, by rw [hp]; rfl, fun h => ?_⟩
  rw [h] at h4
  rw [hp]
  exact store_fits _ _ h4

theorem drawVec_fits (R : Rng) (draw : R.σ → (k : ℕ) → (Fin k → ℝ) × R.σ) (cplx : Bool) (r : R.σ) (k : ℕ) :
    cplx = true ∨ ∀ i, ((drawVec R draw cplx r k).1 i).im = 0 := by
  cases cplx
  · exact .inr fun i => by simp [drawVec]
  · exact .inl rfl

theorem initialSample_holds (M : Sampler n) (hM : KeepsDtype M) (R : Rng) (r : R.σ) (sp : StartPoint)
    (hsp : ∀ v, sp = .array1 v → FitsDtype M.par.complex v) (x : List ℂ × List ℂ × R.σ) (h : initialSample M R r sp = .ok x) :
    Holds M x.1 x.2.1 := by
  unfold initialSample at h
  obtain ⟨xr, h1, h⟩ := bind_ok h
  obtain ⟨preds, h2, h⟩ := bind_ok h
  obtain rfl := Except.ok.inj h
  have key : xr.1.length = M.nparams ∧ FitsDtype M.par.complex xr.1 := by
    cases sp with
    | none =>
      obtain rfl := Except.ok.inj h1
      rw [noise_eq]
      exact ⟨by simp, (fitsDtype_ofFn _ _).mpr (drawVec_fits _ _ _ _ _)⟩
    | arrayNd d hd => cases h1
    | other => cases h1
    | array1 v =>
      simp only [startVector] at h1
      split at h1
      · rename_i hv
        obtain rfl := Except.ok.inj h1
        exact ⟨hv, hsp v rfl⟩
      · cases h1
  obtain ⟨h3, h4⟩ := hM.forward _ _ key.1 key.2 h2
  exact ⟨key.1, key.2, h3, h4⟩

theorem chainStep_holds (M : Sampler n) (R : Rng) (delta : ℝ) (r : R.σ) (X q g : List ℂ) (hX : X.length = M.nparams)
    (hX' : FitsDtype M.par.complex X) (hq : q.length = M.nparams) (hq' : FitsDtype M.par.complex q) (hg : g.length = M.nparams)
    (hg' : FitsDtype M.par.complex g) (y : List ℂ × R.σ) (h : chainStep M R delta r X q g = .ok y) :
    y.1.length = M.nparams ∧ FitsDtype M.par.complex y.1 := by
  have hl : M.par.lmda ≠ 0 := by
    intro h0
    unfold chainStep at h
    simp only [pyDiv, h0, if_true, bind, Except.bind] at h
    cases h
  obtain ⟨x, rfl⟩ := exists_ofFn X hX
  obtain ⟨q, rfl⟩ := exists_ofFn q hq
  obtain ⟨g, rfl⟩ := exists_ofFn g hg
  rw [fitsDtype_ofFn] at hX' hq' hg'
  rw [chainStep_vec M R delta r rfl hl] at h
  obtain rfl := Except.ok.inj h
  refine ⟨by simp, (fitsDtype_ofFn _ _).mpr ?_⟩
  rcases hX' with h1 | h1
  · exact .inl h1
  rcases hq' with h2 | h2
  · exact .inl h2
  rcases hg' with h3 | h3
  · exact .inl h3
  rcases drawVec_fits R R.randn M.par.complex r M.nparams with h4 | h4
  · exact .inl h4
  refine .inr fun i => ?_
  have h5 : ((x i - q i) / (M.par.lmda : ℂ)).im = 0 := by
    rw [Complex.div_ofReal_im, Complex.sub_im, h1, h2]
    simp
  simp only [Complex.add_im, Complex.im_ofReal_mul, Complex.sub_im, Complex.neg_im, h1, h3, h4, h5]
  ring

theorem myulaStep_holds (M : Sampler n) (hM : KeepsDtype M) (R : Rng) (c c' : Cur R) (h : myulaStep M R c = .ok c') (hc : Holds M c.X c.preds) :
    Holds M c'.X c'.preds := by
  unfold myulaStep at h
  obtain ⟨g, h1, h⟩ := bind_ok h
  obtain ⟨q, h2, h⟩ := bind_ok h
  obtain ⟨xr, h3, h⟩ := bind_ok h
  obtain ⟨preds, h4, h⟩ := bind_ok h
  obtain rfl := Except.ok.inj h
  obtain ⟨a1, a2⟩ := hM.gradg _ _ hc.2.2.1 hc.2.2.2 h1
  obtain ⟨b1, b2⟩ := hM.proxf _ _ hc.1 hc.2.1 h2
  obtain ⟨c1, c2⟩ := chainStep_holds M R _ _ _ _ _ hc.1 hc.2.1 b1 b2 a1 a2 _ h3
  obtain ⟨d1, d2⟩ := hM.forward _ _ c1 c2 h4
  exact ⟨c1, c2, d1, d2⟩

theorem gradlogpi_holds (M : Sampler n) (hM : KeepsDtype M) (v g : Fin p → ℂ) (hp : M.nparams = p)
    (hv : M.par.complex = true ∨ ∀ i, (v i).im = 0)
    (h : (do let g ← gradlogpi M.F M.P M.par.lmda (List.ofFn v) none; asVec p g : Py (Fin p → ℂ)) = .ok g) :
    M.par.complex = true ∨ ∀ i, (g i).im = 0 := by
  subst hp
  obtain ⟨l, h1, h2⟩ := bind_ok h
  unfold gradlogpi at h1
  obtain ⟨gf, h3, h1⟩ := bind_ok h1
  obtain ⟨preds, h4, h1⟩ := bind_ok h1
  obtain ⟨gg, h5, h1⟩ := bind_ok h1
  unfold gradf at h3
  obtain ⟨q, h6, h3⟩ := bind_ok h3
  obtain ⟨d, h7, h3⟩ := bind_ok h3
  obtain rfl := Except.ok.inj h3
  have hv' := (fitsDtype_ofFn _ _).mpr hv
  obtain ⟨a1, a2⟩ := hM.proxf _ _ (by simp) hv' h6
  obtain ⟨b1, b2⟩ := hM.forward _ _ (by simp) hv' h4
  obtain ⟨c1, c2⟩ := hM.gradg _ _ b1 b2 h5
  obtain ⟨q, rfl⟩ := exists_ofFn q a1
  obtain ⟨gg, rfl⟩ := exists_ofFn gg c1
  rw [npSub_ofFn] at h7
  obtain rfl := Except.ok.inj h7
  rw [map_ofFn', map_ofFn', npSub_ofFn] at h1
  obtain rfl := Except.ok.inj h1
  simp only [asVec, List.length_ofFn, dif_pos] at h2
  obtain rfl := Except.ok.inj h2
  rw [fitsDtype_ofFn] at a2 c2
  rcases hv with h1 | h1
  · exact .inl h1
  rcases a2 with h2 | h2
  · exact .inl h2
  rcases c2 with h3 | h3
  · exact .inl h3
  refine .inr fun i => ?_
  simp [Complex.div_ofReal_im, h1, h2, h3]

theorem kRec_holds (cplx : Bool) (co : SkrockCoefs) (delta : ℝ) (grad : (Fin p → ℂ) → Py (Fin p → ℂ))
    (hgr : ∀ v g, (cplx = true ∨ ∀ i, (v i).im = 0) → grad v = .ok g → cplx = true ∨ ∀ i, (g i).im = 0) (X Z : Fin p → ℂ)
    (hX : cplx = true ∨ ∀ i, (X i).im = 0) (hZ : cplx = true ∨ ∀ i, (Z i).im = 0) :
    ∀ (s : ℕ) (y : (Fin p → ℂ) × ℕ), kRec co delta grad X Z s = .ok y → cplx = true ∨ ∀ i, (y.1 i).im = 0 := by
  rcases hX with h1 | h1
  · exact fun _ _ _ => .inl h1
  rcases hZ with h2 | h2
  · exact fun _ _ _ => .inl h2
  intro s
  induction s using Nat.strong_induction_on with
  | _ s ih =>
    intro y h
    match s, ih, h with
    | 0, _, h =>
      simp only [kRec] at h
      obtain rfl := Except.ok.inj h
      exact .inr h1
    | 1, _, h =>
      simp only [kRec] at h
      obtain ⟨g, hg, h⟩ := bind_ok h
      obtain rfl := Except.ok.inj h
      rcases hgr _ _ (.inr fun i => by simp [Complex.add_im, h1, h2, -Complex.ofReal_mul]) hg with h3 | h3
      · exact .inl h3
      exact .inr fun i => by simp [Complex.add_im, h1, h2, h3, -Complex.ofReal_mul]
    | s + 2, ih, h =>
      simp only [kRec] at h
      obtain ⟨a, ha, h⟩ := bind_ok h
      obtain ⟨g, hg, h⟩ := bind_ok h
      obtain ⟨b, hb, h⟩ := bind_ok h
      obtain ⟨d, hd, h⟩ := bind_ok h
      obtain rfl := Except.ok.inj h
      rcases ih (s + 1) (by omega) a ha with h3 | h3
      · exact .inl h3
      rcases ih (s + 1) (by omega) b hb with h4 | h4
      · exact .inl h4
      rcases ih s (by omega) d hd with h5 | h5
      · exact .inl h5
      rcases hgr _ _ (.inr h3) hg with h6 | h6
      · exact .inl h6
      exact .inr fun i => by simp [h4, h5, h6, -Complex.ofReal_mul]

theorem skrockTransition_holds (M : Sampler n) (hM : KeepsDtype M) (R : Rng) (co : SkrockCoefs) (c c' : Cur R)
    (h : skrockTransition M R co c = .ok c') (hc : Holds M c.X c.preds) : Holds M c'.X c'.preds := by
  obtain ⟨X, preds, rng⟩ := c
  obtain ⟨h1, h2, -, -⟩ := hc
  obtain ⟨x, rfl⟩ : ∃ x : Fin M.nparams → ℂ, X = List.ofFn x := exists_ofFn X h1
  have hlen : (List.ofFn x).length = M.nparams := by simp
  unfold skrockTransition at h
  obtain ⟨v, hv, h⟩ := bind_ok h
  obtain ⟨z, hz, h⟩ := bind_ok h
  obtain ⟨y, hy, h⟩ := bind_ok h
  obtain ⟨pr, hpr, h⟩ := bind_ok h
  obtain rfl := Except.ok.inj h
  simp only at hv hz hy hpr
  unfold skrockStep at hy
  obtain ⟨w, hw, hy⟩ := bind_ok hy
  obtain rfl := Except.ok.inj hy
  have hvx : M.par.complex = true ∨ ∀ i, (v i).im = 0 := by
    unfold asVec at hv
    split at hv
    · obtain rfl := Except.ok.inj hv
      rcases h2 with h2 | h2
      · exact .inl h2
      · exact .inr fun i => h2 _ (List.getElem_mem _)
    · cases hv
  have hzx : M.par.complex = true ∨ ∀ i, (z i).im = 0 := by
    rw [noise_eq] at hz
    simp only [asVec, List.length_ofFn, dif_pos] at hz
    obtain rfl := Except.ok.inj hz
    rcases drawVec_fits R R.randn M.par.complex rng (List.ofFn x).length with h3 | h3
    · exact .inl h3
    · exact .inr fun i => by simpa using h3 _
  have key := kRec_holds M.par.complex co M.par.delta _ (fun u g hu hg => gradlogpi_holds M hM u g hlen.symm hu hg) v z hvx hzx _ _ hw
  have hl : (List.ofFn w.1).length = M.nparams := by simp
  have hd := (fitsDtype_ofFn M.par.complex w.1).mpr key
  obtain ⟨d1, d2⟩ := hM.forward _ _ hl hd hpr
  exact ⟨hl, hd, d1, d2⟩

theorem hist_holds (M : Sampler n) (R : Rng) (step : Cur R → Py (Cur R)) (c0 : Cur R) (m : ℕ) (T : ℕ → Cur R) (hT : Hist step c0 m T)
    (h0 : Holds M c0.X c0.preds) (hs : ∀ c c', step c = .ok c' → Holds M c.X c.preds → Holds M c'.X c'.preds) :
    ∀ k ≤ m, Holds M (T k).X (T k).preds := by
  intro k
  induction k with
  | zero => intro _; rw [hT.1]; exact h0
  | succ k ih => intro hk; exact hs _ _ (hT.2 k (by omega)) (ih (by omega))

/-- C130 for MYULA: if the operators keep the dtype of the sampler (that is, `complex=True`, or data, operators and start are real), the
values saved in row `k` are those computed from `chain[k]`.  Missing: samplers with `complex=False` for complex data or operators. -/
theorem C130_myula_partial (M : Sampler n) (hM : KeepsDtype M) (R : Rng) (A0 : Arrays) (hA : A0.Shaped M.par.nsamples) (b : ℕ)
    (hb : M.par.nburn = b) (r : R.σ) (sp : StartPoint) (hsp : ∀ v, sp = .array1 v → FitsDtype M.par.complex v) (fuel : ℕ) (st : St R)
    (h : myulaRun M R A0 r sp fuel = .ok (some st)) (k : ℕ) (hk : k < M.par.nsamples) :
    ∃ row, Recomputable M row ∧ (A0.applyAll st.ev).RowIs k row := by
  obtain ⟨X0, P0, r0, T, rows, hx, hT, -, hrows, harr, -⟩ := myulaRun_result M R A0 hA b hb r sp fuel st h
  obtain ⟨hle, l, hl, he⟩ := hrows k hk
  refine ⟨rows k, ?_, by rw [harr]; exact ofRows_rowIs A0 _ rows k hk⟩
  rw [he]
  exact recomputable_mkRow M _ _ l (hist_holds M R _ _ _ T hT (initialSample_holds M hM R r sp hsp _ hx)
    (fun c c' => myulaStep_holds M hM R c c') _ hle) (myulaStep_forward M R _ _ (hT.2 _ (by omega))) hl

/-- C130 for SKROCK. -/
theorem C130_skrock_partial (M : Sampler n) (hM : KeepsDtype M) (R : Rng) (A0 : Arrays) (hA : A0.Shaped M.par.nsamples) (b : ℕ)
    (hb : M.par.nburn = b) (r : R.σ) (sp : StartPoint) (hsp : ∀ v, sp = .array1 v → FitsDtype M.par.complex v) (fuel : ℕ) (st : St R)
    (h : skrockRun M R A0 r sp fuel = .ok (some st)) (k : ℕ) (hk : k < M.par.nsamples) :
    ∃ row, Recomputable M row ∧ (A0.applyAll st.ev).RowIs k row := by
  obtain ⟨co, X0, P0, r0, T, rows, -, hx, hT, -, hrows, harr, -⟩ := skrockRun_result M R A0 hA b hb r sp fuel st h
  obtain ⟨hle, l, hl, he⟩ := hrows k hk
  refine ⟨rows k, ?_, by rw [harr]; exact ofRows_rowIs A0 _ rows k hk⟩
  rw [he]
  exact recomputable_mkRow M _ _ l (hist_holds M R _ _ _ T hT (initialSample_holds M hM R r sp hsp _ hx)
    (fun c c' => skrockTransition_holds M hM R co c c') _ hle) (skrockTransition_forward M R co _ _ (hT.2 _ (by omega))) hl

/-- C130 for PxMALA, with any accept/reject history. -/
theorem C130_mala_partial (M : Sampler n) (hM : KeepsDtype M) (R : Rng) (tune : Bool) (delta : ℝ) (A0 : Arrays)
    (hA : A0.Shaped M.par.nsamples) (b : ℕ) (hb : M.par.nburn = b) (r : R.σ) (sp : StartPoint)
    (hsp : ∀ v, sp = .array1 v → FitsDtype M.par.complex v) (fuel : ℕ) (st : MalaSt R)
    (h : malaRun M R tune delta A0 r sp fuel = .ok (some st)) (k : ℕ) (hk : k < M.par.nsamples) :
    ∃ row, Recomputable M row ∧ (A0.applyAll st.ev).RowIs k row := by
  obtain ⟨s0, T, h0, hT, -, hacc, -, hlen, harr, -⟩ := malaRun_result M R tune delta A0 hA b hb r sp fuel st h
  refine ⟨histRow M T (savedIters st.acc b (spacing M.par)) k, ?_, by rw [harr]; exact ofRows_rowIs A0 _ _ k hk⟩
  rw [← hlen] at hk
  have hlt := savedIters_lt _ _ _ _ (List.getElem_mem hk)
  have hle : ((savedIters st.acc b (spacing M.par))[k]?).getD 0 + 1 ≤ st.i := by
    rw [List.getElem?_eq_getElem hk, Option.getD_some]; omega
  have hs := hist_synced M R tune s0.core (malaInit_synced M R delta r sp s0 h0) st.i T hT
  have hinv : ∀ k ≤ st.i, Holds M (T k).cur.X (T k).cur.preds := by
    intro k
    induction k with
    | zero =>
      intro _
      obtain ⟨-, -, -, -, -, -, X, preds, r', l, h1, h2, h3, -⟩ := malaInit_ok M R delta r sp s0 h0
      rw [hT.1]
      show Holds M s0.cur.X s0.cur.preds
      rw [h2, h3]
      exact initialSample_holds M hM R r sp hsp _ h1
    | succ k ih =>
      intro hk
      have ih := ih (by omega)
      have hsk := hs k (by omega)
      obtain ⟨pr, a, v, h1, -, -, -, -, h2, -⟩ := coreStep_ok M R tune _ _ (hT.2 k (by omega))
      rcases h2 with ⟨-, -, h2⟩ | ⟨-, -, h2⟩
      · rw [h2]
        unfold malaPropose at h1
        obtain ⟨xr, e1, h1⟩ := bind_ok h1
        obtain ⟨preds, e2, h1⟩ := bind_ok h1
        obtain ⟨g, e3, h1⟩ := bind_ok h1
        obtain ⟨q, e4, h1⟩ := bind_ok h1
        obtain ⟨l, e5, h1⟩ := bind_ok h1
        obtain rfl := Except.ok.inj h1
        obtain ⟨a1, a2⟩ := hM.gradg _ _ ih.2.2.1 ih.2.2.2 hsk.gradg
        obtain ⟨b1, b2⟩ := hM.proxf _ _ ih.1 ih.2.1 hsk.proxf
        obtain ⟨c1, c2⟩ := chainStep_holds M R _ _ _ _ _ ih.1 ih.2.1 b1 b2 a1 a2 _ e1
        obtain ⟨d1, d2⟩ := hM.forward _ _ c1 c2 e2
        exact ⟨c1, c2, d1, d2⟩
      · rw [h2]
        exact ih
  exact recomputable_mkRow M _ _ _ (hinv _ hle) (hs _ hle).preds (hs _ hle).logpi

/-- The hypothesis of C130 in terms of maps on vectors. -/
theorem keepsDtype_of_total (M : Sampler n) {fwd : (Fin p → ℂ) → (Fin n → ℂ)} {grad : (Fin n → ℂ) → (Fin p → ℂ)}
    {prox : (Fin p → ℂ) → (Fin p → ℂ)} {pri : (Fin p → ℂ) → ℝ} (h : Total M p fwd grad prox pri)
    (hr : M.par.complex = true ∨ (∀ x, (∀ i, (x i).im = 0) → ∀ i, (fwd x i).im = 0) ∧ (∀ y, (∀ i, (y i).im = 0) → ∀ i, (grad y i).im = 0) ∧
      ∀ x, (∀ i, (x i).im = 0) → ∀ i, (prox x i).im = 0) : KeepsDtype M := by
  have hp := h.nparams
  have key : ∀ {a b : ℕ} (f : List ℂ → Py (List ℂ)) (g : (Fin a → ℂ) → (Fin b → ℂ)), ActsAs f g →
      (M.par.complex = true ∨ ∀ x, (∀ i, (x i).im = 0) → ∀ i, (g x i).im = 0) →
      ∀ X Y, X.length = a → FitsDtype M.par.complex X → f X = .ok Y → Y.length = b ∧ FitsDtype M.par.complex Y := by
    intro a b f g hf hg X Y hX hX' hY
    obtain ⟨x, rfl⟩ := exists_ofFn X hX
    obtain rfl := Except.ok.inj ((hf x).symm.trans hY)
    refine ⟨by simp, (fitsDtype_ofFn _ _).mpr ?_⟩
    rw [fitsDtype_ofFn] at hX'
    rcases hg with h1 | h1
    · exact .inl h1
    · exact hX'.imp_right fun h2 => h1 x h2
  subst hp
  exact ⟨key _ fwd h.forward (hr.imp_right fun h => h.1), key _ grad h.gradg (hr.imp_right fun h => h.2.1),
    key _ prox h.proxf (hr.imp_right fun h => h.2.2)⟩

/-- C130 fails for `complex=False` and complex data, the combination of the weak-lensing script: in the denoising set-up with the datum
`i`, error 1 and start 0, whatever the random numbers, the saved prior and the saved misfit are not those of the saved sample. -/
theorem C130_complex_data_refuted (s : String) (hs : s = "analysis" ∨ s = "synthesis") (t : ℝ) (ht : 0 ≤ t) (par : Params) (hl : par.lmda ≠ 0)
    (hδ : 0 < par.delta) (hδ2 : par.delta < 2) (hc : par.complex = false) (hns : par.nsamples = 1) (hnb : par.nburn = 0) (hng : par.ngap = 0)
    (hv : par.verbosity ≤ 0) (htr : "L2" ∈ par.track ∧ "prior" ∈ par.track ∧ "chain" ∈ par.track) (R : Rng) (r : R.σ) :
    ∃ F P fuel st L2 prior X,
      ForwardOp.init (⟨true, fun _ => Complex.I⟩ : DataVec 1) (.num ((1 : ℝ) : ℂ) false) s (some identityTransform)
        (some (identityMeasurement 1 1)) (some 1) = .ok F ∧
      L1.init s identityTransform.op identityTransform.adj (.scalar t) = .ok P ∧
      myulaRun ⟨F, P.toPrior, par, 1⟩ R (initArrays ⟨F, P.toPrior, par, 1⟩) r (.array1 [0]) fuel = .ok (some st) ∧
      ((initArrays (⟨F, P.toPrior, par, 1⟩ : Sampler 1)).applyAll st.ev).L2s = some [L2] ∧
      ((initArrays (⟨F, P.toPrior, par, 1⟩ : Sampler 1)).applyAll st.ev).priors = some [prior] ∧
      ((initArrays (⟨F, P.toPrior, par, 1⟩ : Sampler 1)).applyAll st.ev).chain = some [X] ∧
      ∃ preds l, F.forward X = .ok preds ∧ logpi F P.toPrior par.mu X preds = .ok l ∧ L2 < l.2.1.re ∧ l.2.2 < prior := by
  have hsig : IsSigma 1 (.num ((1 : ℝ) : ℂ) false) fun _ => 1 := .scalar 1 one_pos
  obtain ⟨F, P, hF, hP, hFn, htot⟩ := denoise_total_diag (⟨true, fun _ => Complex.I⟩ : DataVec 1) _ _
    (buildInvCov_complex _ rfl _ _ hsig) s hs t
  have tot := htot par hl
  obtain ⟨hd, hW⟩ := forward_stored_complex _ rfl _ _ hsig s _ _ _ F hF
  set M : Sampler 1 := ⟨F, P.toPrior, par, 1⟩ with hM
  obtain ⟨-, st, hst, -, harr⟩ := C41_schedule M R (initArrays M) (initArrays_shaped M) (.inl hv)
    0 0 hnb hng tot _ (fun x => gradlogpi_vec M tot x) r r (.array1 (List.ofFn fun _ : Fin 1 => 0))
    (fun _ => 0) (start_array R tot r _) 1 (by simp [hM, hns])
  set a : ℝ := par.delta / √2 + √(2 * par.delta) * (R.randn r 1).1 0 with ha
  set x : Fin 1 → ℂ := iter (ulaStep M.par.delta (gradVec M.par.lmda (fun x : Fin 1 → ℂ => x)
    (fun y i => (((1 / (1 : ℝ) ^ 2 / √2 : ℝ) : ℂ) * (1 - Complex.I)) * (y i - Complex.I)) fun x i => softEntry (x i) t))
    (noiseSeq R M.par.complex 1 r) (fun _ => 0) (0 + 0 * max 0 1 + 1) with hx
  have hsq : 0 < √2 := Real.sqrt_pos.mpr two_pos
  have hsq2 : √2 ^ 2 = 2 := Real.sq_sqrt zero_le_two
  have hinv : (√2)⁻¹ = √2 * (1 / 2) := (eq_inv_of_mul_eq_one_left (by nlinarith)).symm
  have hx1 : x 0 = (a : ℂ) + ((par.delta / √2 : ℝ) : ℂ) * Complex.I := by
    have h0 : softEntry (0 : ℂ) t = 0 := by simp [softEntry, ht]
    have e : x = ulaStep M.par.delta (gradVec M.par.lmda (fun x : Fin 1 → ℂ => x)
      (fun y i => (((1 / (1 : ℝ) ^ 2 / √2 : ℝ) : ℂ) * (1 - Complex.I)) * (y i - Complex.I)) fun x i => softEntry (x i) t) (fun _ => 0)
      (drawVec R R.randn M.par.complex r 1).1 := rfl
    rw [e]
    simp only [ulaStep, gradVec, drawVec, hM, hc, h0, ha, Bool.false_eq_true, if_false]
    apply Complex.ext
    · simp
      ring_nf
      rw [hinv]
      ring
    · simp
      ring_nf
      rw [hinv]
      ring
  have hL2 : ∀ z : ℂ, (Spec.inner (M.F.data.vals - fun _ => z) (M.F.invcov.mulVec (M.F.data.vals - fun _ => z))).re =
      1 / √2 * (z.re ^ 2 + (1 - z.im) ^ 2) := by
    intro z
    have e1 : M.F.data.vals = fun _ => Complex.I := congrArg DataVec.vals hd
    have e2 : M.F.invcov = _ := hW
    rw [e1, e2]
    simp [Spec.inner, Matrix.mulVec_diagonal]
    field_simp
    ring_nf
    rw [hsq2]
    ring
  have hst' := hst 1 le_rfl
  have e0 : (List.ofFn fun _ : Fin 1 => (0 : ℂ)) = [0] := rfl
  rw [e0] at hst'
  have hxs : x = fun _ => (a : ℂ) + ((par.delta / √2 : ℝ) : ℂ) * Complex.I := funext fun i => by rw [Subsingleton.elim i 0, hx1]
  have hns' : M.par.nsamples = 1 := hns
  have hch : ((initArrays M).applyAll st.ev).chain = some [List.ofFn fun _ : Fin 1 => (a : ℂ)] := by
    rw [harr]
    simp only [Arrays.ofRows, initArrays, show "chain" ∈ M.par.track from htr.2.2, if_true, Option.map_some, hns']
    have e : ∀ i, store M.par.complex (x i) = (a : ℂ) := fun i => by simp [store, show M.par.complex = false from hc, hxs]
    show some [List.ofFn fun i => store M.par.complex (x i)] = _
    simp only [e]
  refine ⟨F, P, 1, st, (rowOf M (fun x : Fin 1 → ℂ => x) (fun x => ∑ i, ‖x i‖) x).L2, (rowOf M (fun x : Fin 1 → ℂ => x) (fun x => ∑ i, ‖x i‖) x).prior,
    _, hF, hP, hst', ?_, ?_, hch, _, _, tot.forward _, logpi_ofFn F P.toPrior par.mu _ _ _ (tot.prior _), ?_, ?_⟩
  · rw [harr]
    simp only [Arrays.ofRows, initArrays, show "L2" ∈ M.par.track from htr.1, if_true, Option.map_some, hns']
    rfl
  · rw [harr]
    simp only [Arrays.ofRows, initArrays, show "prior" ∈ M.par.track from htr.2.1, if_true, Option.map_some, hns']
    rfl
  · have e1 := hL2 a
    have e2 := hL2 ((a : ℂ) + ((par.delta / √2 : ℝ) : ℂ) * Complex.I)
    simp only [rowOf, hxs]
    rw [e2]
    refine lt_of_lt_of_eq ?_ e1.symm
    have h1 : 0 < par.delta / √2 := by positivity
    have h2 : par.delta / √2 < 2 := by
      rw [div_lt_iff₀ hsq]
      nlinarith [Real.one_lt_sqrt_two]
    have h3 : 0 < 1 / √2 := by positivity
    refine mul_lt_mul_of_pos_left ?_ h3
    simp only [Complex.add_re, Complex.add_im, Complex.ofReal_re, Complex.ofReal_im, Complex.re_ofReal_mul, Complex.im_ofReal_mul,
      Complex.I_re, Complex.I_im]
    nlinarith
  · simp only [rowOf, hxs, Finset.univ_unique, Finset.sum_singleton]
    have h1 : 0 < par.delta / √2 := by positivity
    refine lt_of_pow_lt_pow_left₀ 2 (norm_nonneg _) ?_
    rw [Complex.sq_norm, Complex.sq_norm, Complex.normSq_apply, Complex.normSq_apply]
    simp only [Complex.add_re, Complex.add_im, Complex.ofReal_re, Complex.ofReal_im, Complex.re_ofReal_mul, Complex.im_ofReal_mul,
      Complex.I_re, Complex.I_im]
    nlinarith

/-- The hypotheses of the partial theorems are met by a real denoising problem with `complex=False` … -/
example : ∃ (F : ForwardOp 2) (P : L1 ℂ), ForwardOp.init (⟨false, ![1, -2]⟩ : DataVec 2) (.num ((1 / 2 : ℝ) : ℂ) false) "analysis"
    (some identityTransform) (some (identityMeasurement 2 2)) (some 2) = .ok F ∧
    KeepsDtype ⟨F, P.toPrior, ⟨1, 1 / 10, 1, 3, 5, 3, 2, false, 0, ["chain", "L2"]⟩, 2⟩ ∧ FitsDtype false [3, 4] := by
  obtain ⟨V, hV, -, hVe⟩ := C35_diagonal (⟨false, ![1, -2]⟩ : DataVec 2) rfl _ _ (IsSigma.scalar (1 / 2) (by norm_num))
  rw [hVe] at hV
  obtain ⟨F, P, hF, -, -, htot⟩ := denoise_total_diag (⟨false, ![1, -2]⟩ : DataVec 2) _ _ hV "analysis" (.inl rfl) 1
  refine ⟨F, P, hF, keepsDtype_of_total _ (htot ⟨1, 1 / 10, 1, 3, 5, 3, 2, false, 0, ["chain", "L2"]⟩ one_ne_zero)
    (.inr ⟨fun x hx => hx, fun y hy i => ?_, fun x hx i => ?_⟩), .inr (by simp)⟩
  · fin_cases i <;> simp [hy, -Complex.ofReal_div, -Complex.ofReal_pow]
  · have h1 := hx i
    have : x i = ((x i).re : ℂ) := Complex.ext rfl h1
    rw [this]
    simp only [softEntry, signEntry]
    split
    · rfl
    · split <;> simp

/-- … and by a complex one with `complex=True`. -/
example : ∃ (F : ForwardOp 1) (P : L1 ℂ), ForwardOp.init (⟨true, fun _ => Complex.I⟩ : DataVec 1) (.num ((1 : ℝ) : ℂ) false) "synthesis"
    (some identityTransform) (some (identityMeasurement 1 1)) (some 1) = .ok F ∧
    KeepsDtype ⟨F, P.toPrior, ⟨1, 1 / 10, 1, 3, 5, 3, 2, true, 0, ["chain", "L2"]⟩, 1⟩ ∧ FitsDtype true [3 + Complex.I] := by
  obtain ⟨F, P, hF, -, -, htot⟩ := denoise_total_diag (⟨true, fun _ => Complex.I⟩ : DataVec 1) _ _
    (buildInvCov_complex _ rfl _ _ (.scalar 1 one_pos)) "synthesis" (.inr rfl) 1
  exact ⟨F, P, hF, keepsDtype_of_total _ (htot ⟨1, 1 / 10, 1, 3, 5, 3, 2, true, 0, ["chain", "L2"]⟩ one_ne_zero) (.inl rfl), .inl rfl⟩

end Pxmcmc
