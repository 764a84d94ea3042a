import Verif.Lemmas.Joined
import Verif.Props.MalaInvariance
import Verif.Props.SavedLaplace

/-! # C143: two problems that have nothing in common, sampled together, give what they give separately -/

namespace Pxmcmc
variable {n₁ n₂ p₁ p₂ q₁ q₂ : ℕ}

/-! ## Joined computations -/

theorem Joins.bind {l₁ l₂ k₁ k₂ : ℕ} {z a b : Py (List ℂ)} (h : Joins l₁ l₂ z a b) {f f₁ f₂ : List ℂ → Py (List ℂ)}
    (hf : ∀ x y, x.length = l₁ → y.length = l₂ → Joins k₁ k₂ (f (x ++ y)) (f₁ x) (f₂ y)) : Joins k₁ k₂ (z >>= f) (a >>= f₁) (b >>= f₂) := by
  intro v hv
  obtain ⟨u, hu, hv⟩ := bind_ok hv
  obtain ⟨x, y, rfl, rfl, rfl, hx, hy⟩ := h u hu
  exact hf x y hx hy v hv

theorem Joins.ok {l₁ l₂ : ℕ} (x y : List ℂ) (hx : x.length = l₁) (hy : y.length = l₂) : Joins l₁ l₂ (.ok (x ++ y)) (.ok x) (.ok y) := by
  intro v hv
  cases hv
  exact ⟨x, y, rfl, rfl, rfl, hx, hy⟩

/-- The results of the parts are parts of the result. -/
theorem Joins.picks {a₁ a₂ l₁ l₂ : ℕ} {f f₁ f₂ : List ℂ → Py (List ℂ)}
    (h : ∀ x y, x.length = a₁ → y.length = a₂ → Joins l₁ l₂ (f (x ++ y)) (f₁ x) (f₂ y)) (X : List ℂ) (hX : X.length = a₁ + a₂) (v : List ℂ)
    (hv : f X = .ok v) : v.length = l₁ + l₂ ∧
      f₁ (pick (Fin.castAdd a₂ : Fin a₁ → _) X) = .ok (pick (Fin.castAdd l₂ : Fin l₁ → _) v) ∧
      f₂ (pick (Fin.natAdd a₁ : Fin a₂ → _) X) = .ok (pick (Fin.natAdd l₁ : Fin l₂ → _) v) := by
  rw [← pick_append X hX] at hv
  obtain ⟨x, y, h1, h2, rfl, hx, hy⟩ := h _ _ (pick_length _ _) (pick_length _ _) v hv
  rw [pick_left x y hx hy, pick_right x y hx hy]
  exact ⟨by simp [hx, hy], h1, h2⟩

theorem joins_sub (x y a b : List ℂ) (hx : x.length = q₁) (hy : y.length = q₂) (ha : a.length = q₁) (hb : b.length = q₂) :
    Joins q₁ q₂ (npSub (x ++ y) (a ++ b)) (npSub x a) (npSub y b) := by
  obtain ⟨x, rfl⟩ := exists_ofFn x hx
  obtain ⟨y, rfl⟩ := exists_ofFn y hy
  obtain ⟨a, rfl⟩ := exists_ofFn a ha
  obtain ⟨b, rfl⟩ := exists_ofFn b hb
  rw [← List.ofFn_fin_append, ← List.ofFn_fin_append, npSub_ofFn, npSub_ofFn, npSub_ofFn, append_sub, List.ofFn_fin_append]
  exact .ok _ _ (by simp) (by simp)

theorem append_add (a v : Fin q₁ → ℂ) (b u : Fin q₂ → ℂ) :
    (fun i => Fin.append a b i + Fin.append v u i) = Fin.append (fun i => a i + v i) (fun i => b i + u i) := by
  funext j
  refine Fin.addCases (fun i => ?_) (fun i => ?_) j
  · simp only [Fin.append_left]
  · simp only [Fin.append_right]

theorem joins_add (x y a b : List ℂ) (hx : x.length = q₁) (hy : y.length = q₂) (ha : a.length = q₁) (hb : b.length = q₂) :
    Joins q₁ q₂ (npAdd (x ++ y) (a ++ b)) (npAdd x a) (npAdd y b) := by
  obtain ⟨x, rfl⟩ := exists_ofFn x hx
  obtain ⟨y, rfl⟩ := exists_ofFn y hy
  obtain ⟨a, rfl⟩ := exists_ofFn a ha
  obtain ⟨b, rfl⟩ := exists_ofFn b hb
  rw [← List.ofFn_fin_append, ← List.ofFn_fin_append, npAdd_ofFn, npAdd_ofFn, npAdd_ofFn, append_add, List.ofFn_fin_append]
  exact .ok _ _ (by simp) (by simp)

theorem joins_diag (w₁ : Fin n₁ → ℂ) (w₂ : Fin n₂ → ℂ) (x y : List ℂ) (hx : x.length = n₁) (hy : y.length = n₂) :
    Joins n₁ n₂ (matDot (Matrix.diagonal (Fin.append w₁ w₂)) (x ++ y)) (matDot (Matrix.diagonal w₁) x) (matDot (Matrix.diagonal w₂) y) := by
  obtain ⟨x, rfl⟩ := exists_ofFn x hx
  obtain ⟨y, rfl⟩ := exists_ofFn y hy
  rw [← List.ofFn_fin_append, matDot_ofFn, matDot_ofFn, matDot_ofFn, append_diag, List.ofFn_fin_append]
  exact .ok _ _ (by simp) (by simp)

theorem joins_soft {T₁ T₂ T : Thresh} (hT : ThreshJoin q₁ q₂ T₁ T₂ T) (x y : List ℂ) (hx : x.length = q₁) (hy : y.length = q₂) :
    Joins q₁ q₂ (soft (x ++ y) T) (soft x T₁) (soft y T₂) := by
  cases hT with
  | scalar t =>
    rw [soft_scalar_list, soft_scalar_list, soft_scalar_list, List.map_append]
    exact .ok _ _ (by simpa using hx) (by simpa using hy)
  | vector t₁ t₂ h₁ h₂ =>
    obtain ⟨x, rfl⟩ := exists_ofFn x hx
    obtain ⟨y, rfl⟩ := exists_ofFn y hy
    obtain ⟨t₁, rfl⟩ := exists_ofFn t₁ h₁
    obtain ⟨t₂, rfl⟩ := exists_ofFn t₂ h₂
    rw [← List.ofFn_fin_append, ← List.ofFn_fin_append, soft_vector, soft_vector, soft_vector]
    have : (fun i => softEntry (Fin.append x y i) (Fin.append t₁ t₂ i)) =
        Fin.append (fun i => softEntry (x i) (t₁ i)) (fun i => softEntry (y i) (t₂ i)) := by
      funext j
      refine Fin.addCases (fun i => ?_) (fun i => ?_) j
      · simp only [Fin.append_left]
      · simp only [Fin.append_right]
    rw [this, List.ofFn_fin_append]
    exact .ok _ _ (by simp) (by simp)

/-! ## The constructors -/

theorem buildInvCov_join {d₁ : DataVec n₁} {d₂ : DataVec n₂} (hc : d₂.cplx = d₁.cplx) {sig₁ sig₂ sig : SigD} (h : SigJoin n₁ n₂ sig₁ sig₂ sig)
    (W : Matrix (Fin (n₁ + n₂)) (Fin (n₁ + n₂)) ℂ) (hW : buildInvCov (d₁.join d₂) sig = .ok W) :
    ∃ (w₁ : Fin n₁ → ℂ) (w₂ : Fin n₂ → ℂ), W = Matrix.diagonal (Fin.append w₁ w₂) ∧ buildInvCov d₁ sig₁ = .ok (Matrix.diagonal w₁) ∧
      buildInvCov d₂ sig₂ = .ok (Matrix.diagonal w₂) := by
  cases h with
  | num x cplx =>
    simp only [buildInvCov] at hW ⊢
    split at hW
    · split at hW <;> cases hW
    · rename_i hne
      replace hne : ¬ complexVar d₁.cplx cplx (x ^ 2) = 0 := hne
      cases hW
      refine ⟨fun _ => 1 / complexVar d₁.cplx cplx (x ^ 2), fun _ => 1 / complexVar d₁.cplx cplx (x ^ 2), ?_, ?_, ?_⟩
      · congr 1
        funext j
        refine Fin.addCases (fun i => ?_) (fun i => ?_) j
        · simp only [Fin.append_left]
          rfl
        · simp only [Fin.append_right]
          rfl
      · rw [if_neg hne]
      · rw [hc, if_neg hne]
  | vec σ₁ σ₂ cplx =>
    simp only [buildInvCov] at hW ⊢
    rw [dif_pos (by simp)] at hW
    rw [dif_pos (by simp), dif_pos (by simp)]
    simp only [List.getElem_ofFn, Fin.getElem_fin, Fin.eta] at hW ⊢
    split at hW
    · cases hW
    · rename_i hne
      cases hW
      refine ⟨fun i => 1 / complexVar d₁.cplx cplx (σ₁ i ^ 2), fun i => 1 / complexVar d₁.cplx cplx (σ₂ i ^ 2), ?_, ?_, ?_⟩
      · congr 1
        funext j
        refine Fin.addCases (fun i => ?_) (fun i => ?_) j
        · simp only [Fin.append_left]
          rfl
        · simp only [Fin.append_right]
          rfl
      · rw [if_neg]
        rintro ⟨i, hi⟩
        exact hne ⟨Fin.castAdd n₂ i, by rw [Fin.append_left]; exact hi⟩
      · rw [hc, if_neg]
        rintro ⟨i, hi⟩
        exact hne ⟨Fin.natAdd n₁ i, by rw [Fin.append_right]; exact hi⟩

theorem attr_join {a₁ a₂ b₁ b₂ : ℕ} {o₁ o₂ o : Option OpPair} (h : BesideOpt a₁ a₂ b₁ b₂ o₁ o₂ o) (m : OpPair) (hm : attr o = .ok m) :
    ∃ m₁ m₂, attr o₁ = .ok m₁ ∧ attr o₂ = .ok m₂ ∧ Beside a₁ a₂ b₁ b₂ m₁ m₂ m := by
  cases h with
  | none => cases hm
  | some o₁ o₂ o h =>
    cases hm
    exact ⟨o₁, o₂, rfl, rfl, h⟩

/-- Getting an operator, then a computation with it. -/
theorem Joins.attr {a₁ a₂ b₁ b₂ k₁ k₂ : ℕ} {o₁ o₂ o : Option OpPair} (h : BesideOpt a₁ a₂ b₁ b₂ o₁ o₂ o) {f f₁ f₂ : OpPair → Py (List ℂ)}
    (hf : ∀ m₁ m₂ m, Beside a₁ a₂ b₁ b₂ m₁ m₂ m → Joins k₁ k₂ (f m) (f₁ m₁) (f₂ m₂)) :
    Joins k₁ k₂ (Pxmcmc.attr o >>= f) (Pxmcmc.attr o₁ >>= f₁) (Pxmcmc.attr o₂ >>= f₂) := by
  intro v hv
  obtain ⟨m, hm, hv⟩ := bind_ok hv
  obtain ⟨m₁, m₂, e1, e2, hb⟩ := attr_join h m hm
  rw [e1, e2]
  exact hf m₁ m₂ m hb v hv

/-- The three samplers of two problems without anything in common. -/
theorem joined_init (d₁ : DataVec n₁) (d₂ : DataVec n₂) (w₁ : Fin n₁ → ℂ) (w₂ : Fin n₂ → ℂ) (set : Setting)
    (hq : set = .analysis → q₁ = p₁ ∧ q₂ = p₂) {t₁ t₂ t m₁ m₂ m : Option OpPair} (ht : BesideOpt p₁ p₂ q₁ q₂ t₁ t₂ t)
    (hm : BesideOpt q₁ q₂ n₁ n₂ m₁ m₂ m) {P₁ P₂ P : PriorObj} (hP : PriorJoin p₁ p₂ P₁ P₂ P) (par : Params) :
    Joined (⟨⟨d₁, Matrix.diagonal w₁, set, t₁, m₁, some p₁⟩, P₁, par, p₁⟩ : Sampler n₁)
      (⟨⟨d₂, Matrix.diagonal w₂, set, t₂, m₂, some p₂⟩, P₂, par, p₂⟩ : Sampler n₂)
      (⟨⟨d₁.join d₂, Matrix.diagonal (Fin.append w₁ w₂), set, t, m, some (p₁ + p₂)⟩, P, par, p₁ + p₂⟩ : Sampler (n₁ + n₂)) := by
  set F₁ : ForwardOp n₁ := ⟨d₁, Matrix.diagonal w₁, set, t₁, m₁, some p₁⟩ with hF₁
  set F₂ : ForwardOp n₂ := ⟨d₂, Matrix.diagonal w₂, set, t₂, m₂, some p₂⟩ with hF₂
  set F : ForwardOp (n₁ + n₂) := ⟨d₁.join d₂, Matrix.diagonal (Fin.append w₁ w₂), set, t, m, some (p₁ + p₂)⟩ with hF
  have fwd : ∀ x y, x.length = p₁ → y.length = p₂ → Joins n₁ n₂ (F.forward (x ++ y)) (F₁.forward x) (F₂.forward y) := by
    intro x y hx hy
    cases set with
    | analysis =>
      obtain ⟨rfl, rfl⟩ := hq rfl
      exact Joins.attr hm fun a b c h => h.op x y hx hy
    | synthesis =>
      exact Joins.attr hm fun a b c h => Joins.attr ht fun a' b' c' h' => (h'.op x y hx hy).bind fun u v hu hv => h.op u v hu hv
  have grad0 : ∀ x y, x.length = n₁ → y.length = n₂ →
      Joins q₁ q₂ (F.gradgAnalysis (x ++ y)) (F₁.gradgAnalysis x) (F₂.gradgAnalysis y) := by
    intro x y hx hy
    refine Joins.attr hm fun a b c h => ?_
    have e : List.ofFn F.data.vals = List.ofFn d₁.vals ++ List.ofFn d₂.vals := by rw [hF]; simp only [DataVec.join, List.ofFn_fin_append]
    rw [e]
    refine (joins_sub x y (List.ofFn d₁.vals) (List.ofFn d₂.vals) hx hy (by simp) (by simp)).bind fun u v hu hv => ?_
    exact (joins_diag w₁ w₂ u v hu hv).bind fun u' v' hu' hv' => h.adj u' v' hu' hv'
  have grad : ∀ x y, x.length = n₁ → y.length = n₂ → Joins p₁ p₂ (F.calcGradg (x ++ y)) (F₁.calcGradg x) (F₂.calcGradg y) := by
    intro x y hx hy
    cases set with
    | analysis =>
      obtain ⟨rfl, rfl⟩ := hq rfl
      exact grad0 x y hx hy
    | synthesis => exact Joins.attr ht fun a b c h => (grad0 x y hx hy).bind fun u v hu hv => h.adj u v hu hv
  have lpi : ∀ X Y, X.length = p₁ + p₂ → Y.length = n₁ + n₂ → ∀ l, Pxmcmc.logpi F P par.mu X Y = .ok l → ∃ l₁ l₂,
      Pxmcmc.logpi F₁ P₁ par.mu (pick (Fin.castAdd p₂ : Fin p₁ → _) X) (pick (Fin.castAdd n₂ : Fin n₁ → _) Y) = .ok l₁ ∧
      Pxmcmc.logpi F₂ P₂ par.mu (pick (Fin.natAdd p₁ : Fin p₂ → _) X) (pick (Fin.natAdd n₁ : Fin n₂ → _) Y) = .ok l₂ ∧ l = l₁ + l₂ := by
    intro X Y hX hY l hl
    have hXa := pick_append X hX
    have hYa := pick_append Y hY
    have hx1 := pick_length (Fin.castAdd p₂ : Fin p₁ → _) X
    have hx2 := pick_length (Fin.natAdd p₁ : Fin p₂ → _) X
    have hy1 := pick_length (Fin.castAdd n₂ : Fin n₁ → _) Y
    have hy2 := pick_length (Fin.natAdd n₁ : Fin n₂ → _) Y
    generalize pick (Fin.castAdd p₂ : Fin p₁ → _) X = x at *
    generalize pick (Fin.natAdd p₁ : Fin p₂ → _) X = x' at *
    generalize pick (Fin.castAdd n₂ : Fin n₁ → _) Y = y at *
    generalize pick (Fin.natAdd n₁ : Fin n₂ → _) Y = y' at *
    subst hXa hYa
    obtain ⟨v, rfl⟩ := exists_ofFn y hy1
    obtain ⟨v', rfl⟩ := exists_ofFn y' hy2
    unfold Pxmcmc.logpi at hl ⊢
    simp only [hF, DataVec.join] at hl
    rw [← List.ofFn_fin_append, npSub_ofFn, append_sub] at hl
    simp only [bind, Except.bind, matDot_ofFn, npVdot_ofFn, append_diag, append_inner] at hl
    cases hp : P.prior (x ++ x') with
    | error e => rw [hp] at hl; cases hl
    | ok u =>
      obtain ⟨u₁, u₂, e1, e2, rfl⟩ := hP.prior x x' hx1 hx2 u hp
      rw [hp] at hl
      simp only [hF₁, hF₂, npSub_ofFn, bind, Except.bind, matDot_ofFn, npVdot_ofFn, e1, e2]
      refine ⟨_, _, rfl, rfl, ?_⟩
      rw [← Except.ok.inj hl]
      refine Prod.ext ?_ rfl
      simp only [Prod.fst_add]
      push_cast
      ring
  refine ⟨⟨rfl, rfl, fun X hX Y h => ?_, fun Y hY G h => ?_, fun X hX Y h => ?_, fun X Y hX hY l h => ?_⟩,
    ⟨rfl, rfl, fun X hX Y h => ?_, fun Y hY G h => ?_, fun X hX Y h => ?_, fun X Y hX hY l h => ?_⟩, fun X Y l l₁ l₂ hX hY h h₁ h₂ => ?_⟩
  · exact ⟨(Joins.picks fwd X hX Y h).1, (Joins.picks fwd X hX Y h).2.1⟩
  · exact ⟨(Joins.picks grad Y hY G h).1, (Joins.picks grad Y hY G h).2.1⟩
  · exact ⟨(Joins.picks hP.prox X hX Y h).1, (Joins.picks hP.prox X hX Y h).2.1⟩
  · obtain ⟨l₁, l₂, h1, -⟩ := lpi X Y hX hY l h
    exact ⟨l₁, h1⟩
  · exact ⟨(Joins.picks fwd X hX Y h).1, (Joins.picks fwd X hX Y h).2.2⟩
  · exact ⟨(Joins.picks grad Y hY G h).1, (Joins.picks grad Y hY G h).2.2⟩
  · exact ⟨(Joins.picks hP.prox X hX Y h).1, (Joins.picks hP.prox X hX Y h).2.2⟩
  · obtain ⟨l₁, l₂, -, h2, -⟩ := lpi X Y hX hY l h
    exact ⟨l₂, h2⟩
  · obtain ⟨l₁', l₂', h1, h2, rfl⟩ := lpi X Y hX hY l h
    rw [← Except.ok.inj (h1.symm.trans h₁), ← Except.ok.inj (h2.symm.trans h₂)]

theorem StartJoin.parts {sp₁ sp₂ sp : StartPoint} (h : StartJoin p₁ p₂ sp₁ sp₂ sp) :
    sp.part (Fin.castAdd p₂ : Fin p₁ → Fin (p₁ + p₂)) = sp₁ ∧ sp.part (Fin.natAdd p₁ : Fin p₂ → Fin (p₁ + p₂)) = sp₂ := by
  cases h with
  | none => exact ⟨rfl, rfl⟩
  | array x y h₁ h₂ => simp only [StartPoint.part, pick_left x y h₁ h₂, pick_right x y h₁ h₂, and_self]

/-- C143: let the data, standard deviations, operators and prior of two problems be written one behind the other, so that no operator
mixes them.  Then, for every generator, a MYULA run or an SKROCK run (any number of stages) of the joined problem records, in every row,
the samples and predictions that the two problems record when they are sampled separately with their share of the random numbers, one
behind the other; the recorded log-posteriors, misfits and priors are the sums. -/
theorem C143_myula_skrock_partial (d₁ : DataVec n₁) (d₂ : DataVec n₂) (hc : d₂.cplx = d₁.cplx) {sig₁ sig₂ sig : SigD}
    (hsig : SigJoin n₁ n₂ sig₁ sig₂ sig) (s : String) (hq : s = "analysis" → q₁ = p₁ ∧ q₂ = p₂) {t₁ t₂ t m₁ m₂ m : Option OpPair}
    (ht : BesideOpt p₁ p₂ q₁ q₂ t₁ t₂ t) (hm : BesideOpt q₁ q₂ n₁ n₂ m₁ m₂ m) (F : ForwardOp (n₁ + n₂))
    (hF : ForwardOp.init (d₁.join d₂) sig s t m (some (p₁ + p₂)) = .ok F) {P₁ P₂ P : PriorObj} (hP : PriorJoin p₁ p₂ P₁ P₂ P) (par : Params)
    (M : Sampler (n₁ + n₂)) (A : Arrays) (hM : samplerInit F P par = .ok (M, A)) :
    ∃ (F₁ : ForwardOp n₁) (F₂ : ForwardOp n₂) (M₁ : Sampler n₁) (M₂ : Sampler n₂) (A₁ A₂ : Arrays),
      ForwardOp.init d₁ sig₁ s t₁ m₁ (some p₁) = .ok F₁ ∧ samplerInit F₁ P₁ par = .ok (M₁, A₁) ∧
      ForwardOp.init d₂ sig₂ s t₂ m₂ (some p₂) = .ok F₂ ∧ samplerInit F₂ P₂ par = .ok (M₂, A₂) ∧
      ∀ (R : Rng) (r : R.σ) (sp₁ sp₂ sp : StartPoint) (fuel : ℕ), StartJoin p₁ p₂ sp₁ sp₂ sp →
        (∀ st, myulaRun M R A r sp fuel = .ok (some st) → ∃ st₁ st₂, myulaRun M₁ (R.left p₂) A₁ r sp₁ fuel = .ok (some st₁) ∧
          myulaRun M₂ (R.right p₁) A₂ r sp₂ fuel = .ok (some st₂) ∧ st₁.i = st.i ∧ st₂.i = st.i ∧
          A.applyAll st.ev = (A₁.applyAll st₁.ev).join (A₂.applyAll st₂.ev)) ∧
        ∀ st, skrockRun M R A r sp fuel = .ok (some st) → ∃ st₁ st₂, skrockRun M₁ (R.left p₂) A₁ r sp₁ fuel = .ok (some st₁) ∧
          skrockRun M₂ (R.right p₁) A₂ r sp₂ fuel = .ok (some st₂) ∧ st₁.i = st.i ∧ st₂.i = st.i ∧
          A.applyAll st.ev = (A₁.applyAll st₁.ev).join (A₂.applyAll st₂.ev) := by
  unfold ForwardOp.init at hF
  obtain ⟨W, hW, hF⟩ := bind_ok hF
  obtain ⟨w₁, w₂, rfl, hW₁, hW₂⟩ := buildInvCov_join hc hsig W hW
  cases hs : Setting.parse s with
  | none => rw [hs] at hF; cases hF
  | some set =>
    rw [hs] at hF
    cases hF
    cases hM
    have J := joined_init d₁ d₂ w₁ w₂ set (fun h => hq (by
      subst h
      unfold Setting.parse at hs
      split at hs
      · assumption
      · split at hs <;> cases hs)) ht hm hP par
    refine ⟨⟨d₁, Matrix.diagonal w₁, set, t₁, m₁, some p₁⟩, ⟨d₂, Matrix.diagonal w₂, set, t₂, m₂, some p₂⟩,
      ⟨⟨d₁, Matrix.diagonal w₁, set, t₁, m₁, some p₁⟩, P₁, par, p₁⟩, ⟨⟨d₂, Matrix.diagonal w₂, set, t₂, m₂, some p₂⟩, P₂, par, p₂⟩,
      _, _, ?_, rfl, ?_, rfl, ?_⟩
    · unfold ForwardOp.init
      rw [hW₁]
      simp only [bind, Except.bind, hs]
    · unfold ForwardOp.init
      rw [hW₂]
      simp only [bind, Except.bind, hs]
    · intro R r sp₁ sp₂ sp fuel hsp
      obtain ⟨rfl, rfl⟩ := hsp.parts
      refine ⟨fun st h => ?_, fun st h => ?_⟩
      · obtain ⟨st₁, st₂, h1, h2, h3, h4, -, h5⟩ := J.myulaRun R r sp fuel st h
        exact ⟨st₁, st₂, h1, h2, h3, h4, h5⟩
      · obtain ⟨st₁, st₂, h1, h2, h3, h4, -, h5⟩ := J.skrockRun R r sp fuel st h
        exact ⟨st₁, st₂, h1, h2, h3, h4, h5⟩

/-- C143, the prior `L1` (both settings, one threshold or an array) of two problems written one behind the other. -/
theorem C143_l1 (s : String) {fwd fwd₁ fwd₂ adj adj₁ adj₂ : List ℂ → Py (List ℂ)}
    (hop : s = "analysis" → Beside q₁ q₂ p₁ p₂ ⟨fwd₁, adj₁⟩ ⟨fwd₂, adj₂⟩ ⟨fwd, adj⟩) (hq : s = "synthesis" → q₁ = p₁ ∧ q₂ = p₂)
    {T₁ T₂ T : Thresh} (hT : ThreshJoin q₁ q₂ T₁ T₂ T) (L : L1 ℂ) (hL : L1.init s fwd adj T = .ok L) :
    ∃ L₁ L₂, L1.init s fwd₁ adj₁ T₁ = .ok L₁ ∧ L1.init s fwd₂ adj₂ T₂ = .ok L₂ ∧ PriorJoin p₁ p₂ L₁.toPrior L₂.toPrior L.toPrior := by
  unfold L1.init at hL ⊢
  cases hs : Setting.parse s with
  | none => rw [hs] at hL; cases hL
  | some set =>
    rw [hs] at hL
    cases hL
    refine ⟨_, _, rfl, rfl, fun x y hx hy => ?_, fun x y hx hy v hv => ?_⟩
    · unfold Setting.parse at hs
      cases set with
      | synthesis =>
        obtain ⟨rfl, rfl⟩ := hq (by
          split at hs
          · cases hs
          · split at hs
            · assumption
            · cases hs)
        exact joins_soft hT x y hx hy
      | analysis =>
        have h := hop (by
          split at hs
          · assumption
          · split at hs <;> cases hs)
        refine (h.adj x y hx hy).bind fun a b ha hb => (joins_soft hT a b ha hb).bind fun u v hu hv =>
          (h.adj x y hx hy).bind fun a' b' ha' hb' => (joins_sub u v a' b' hu hv ha' hb').bind fun e f he hf =>
          (h.op e f he hf).bind fun g k hg hk => joins_add x y g k hx hy hg hk
    · cases hv
      refine ⟨_, _, rfl, rfl, ?_⟩
      simp [L1.prior]

/-- C143 for path integrals: two networks of which none crosses a pixel of the other. -/
theorem C143_path_integrals (W₁ : Matrix (Fin n₁) (Fin p₁) ℂ) (W₂ : Matrix (Fin n₂) (Fin p₂) ℂ) :
    Beside p₁ p₂ n₁ n₂ ⟨pathForward W₁, pathAdjoint W₁⟩ ⟨pathForward W₂, pathAdjoint W₂⟩
      ⟨pathForward (blockMatrix W₁ W₂), pathAdjoint (blockMatrix W₁ W₂)⟩ := by
  have e1 : ∀ i, blockMatrix W₁ W₂ (Fin.castAdd n₂ i) = Fin.append (W₁ i) 0 := fun i => by
    show Fin.append (fun i => Fin.append (W₁ i) 0) (fun i => Fin.append 0 (W₂ i)) (Fin.castAdd n₂ i) = _
    rw [Fin.append_left]
  have e2 : ∀ i, blockMatrix W₁ W₂ (Fin.natAdd n₁ i) = Fin.append 0 (W₂ i) := fun i => by
    show Fin.append (fun i => Fin.append (W₁ i) 0) (fun i => Fin.append 0 (W₂ i)) (Fin.natAdd n₁ i) = _
    rw [Fin.append_right]
  constructor
  · intro x y hx hy
    obtain ⟨x, rfl⟩ := exists_ofFn x hx
    obtain ⟨y, rfl⟩ := exists_ofFn y hy
    have e : (blockMatrix W₁ W₂).mulVec (Fin.append x y) = Fin.append (W₁.mulVec x) (W₂.mulVec y) := by
      funext j
      refine Fin.addCases (fun i => ?_) (fun i => ?_) j
      · rw [Fin.append_left]
        simp only [Matrix.mulVec, dotProduct, e1, Fin.sum_univ_add, Fin.append_left, Fin.append_right, Pi.zero_apply, zero_mul,
          Finset.sum_const_zero, add_zero]
      · rw [Fin.append_right]
        simp only [Matrix.mulVec, dotProduct, e2, Fin.sum_univ_add, Fin.append_left, Fin.append_right, Pi.zero_apply, zero_mul,
          Finset.sum_const_zero, zero_add]
    simp only [pathForward]
    rw [if_pos (by simp), if_pos hx, if_pos hy, ← List.ofFn_fin_append, matDot_ofFn, matDot_ofFn, matDot_ofFn, e, List.ofFn_fin_append]
    exact .ok _ _ (by simp) (by simp)
  · intro x y hx hy
    obtain ⟨x, rfl⟩ := exists_ofFn x hx
    obtain ⟨y, rfl⟩ := exists_ofFn y hy
    have e : (blockMatrix W₁ W₂).conjTranspose.mulVec (Fin.append x y) =
        Fin.append (W₁.conjTranspose.mulVec x) (W₂.conjTranspose.mulVec y) := by
      funext j
      simp only [Matrix.mulVec, dotProduct, Matrix.conjTranspose_apply, Fin.sum_univ_add, e1, e2, Fin.append_left, Fin.append_right]
      refine Fin.addCases (fun i => ?_) (fun i => ?_) j
      · simp only [Fin.append_left, Pi.zero_apply, star_zero, zero_mul, Finset.sum_const_zero, add_zero]
        rfl
      · simp only [Fin.append_right, Pi.zero_apply, star_zero, zero_mul, Finset.sum_const_zero, zero_add]
        rfl
    simp only [pathAdjoint]
    rw [if_pos (by simp), if_pos hx, if_pos hy, ← List.ofFn_fin_append, matDot_ofFn, matDot_ofFn, matDot_ofFn, e, List.ofFn_fin_append]
    exact .ok _ _ (by simp) (by simp)

/-- C143 for denoising: the identity operators act on every entry separately. -/
theorem C143_identity :
    Beside p₁ p₂ p₁ p₂ identityTransform identityTransform identityTransform ∧
    Beside p₁ p₂ p₁ p₂ (identityMeasurement p₁ p₁) (identityMeasurement p₂ p₂) (identityMeasurement (p₁ + p₂) (p₁ + p₂)) := by
  refine ⟨⟨fun x y hx hy => .ok x y hx hy, fun x y hx hy => .ok x y hx hy⟩, ⟨fun x y hx hy => ?_, fun x y hx hy => ?_⟩⟩
  · obtain ⟨x, rfl⟩ := exists_ofFn x hx
    obtain ⟨y, rfl⟩ := exists_ofFn y hy
    rw [identity_acts.1 x, identity_acts.1 y, ← List.ofFn_fin_append, identity_acts.1, List.ofFn_fin_append]
    exact .ok _ _ hx hy
  · obtain ⟨x, rfl⟩ := exists_ofFn x hx
    obtain ⟨y, rfl⟩ := exists_ofFn y hy
    rw [identity_acts.2 x, identity_acts.2 y, ← List.ofFn_fin_append, identity_acts.2, List.ofFn_fin_append]
    exact .ok _ _ hx hy

/-- Two networks of paths, one with two pixels and one with a single pixel, and the default prior. -/
example : ∃ (F : ForwardOp (1 + 2)) (L : L1 ℂ) (M : Sampler (1 + 2)) (A : Arrays),
    SigJoin 1 2 (.vec (List.ofFn ![(1 : ℂ)]) false) (.vec (List.ofFn ![(2 : ℂ), 3]) false)
      (.vec (List.ofFn (Fin.append ![(1 : ℂ)] ![(2 : ℂ), 3])) false) ∧
    BesideOpt 2 1 1 2 (some ⟨pathForward !![1, 2], pathAdjoint !![1, 2]⟩) (some ⟨pathForward !![4; 5], pathAdjoint !![4; 5]⟩)
      (some ⟨pathForward (blockMatrix !![1, 2] !![4; 5]), pathAdjoint (blockMatrix !![1, 2] !![4; 5])⟩) ∧
    ForwardOp.init (DataVec.join ⟨false, ![3]⟩ ⟨false, ![5, 6]⟩) (.vec (List.ofFn (Fin.append ![(1 : ℂ)] ![(2 : ℂ), 3])) false) "synthesis"
      (some identityTransform) (some ⟨pathForward (blockMatrix !![1, 2] !![4; 5]), pathAdjoint (blockMatrix !![1, 2] !![4; 5])⟩)
      (some (2 + 1)) = .ok F ∧
    L1.init "synthesis" identityTransform.op identityTransform.adj (.vector ([1, 2] ++ [3])) = .ok L ∧
    ThreshJoin 2 1 (.vector [1, 2]) (.vector [3]) (.vector ([1, 2] ++ [3])) ∧
    samplerInit F L.toPrior ⟨1, 1 / 2, 1, 1, 4, 3, 2, false, 3, ["chain", "predictions"]⟩ = .ok (M, A) ∧
    StartJoin 2 1 (.array1 [1, 2]) (.array1 [3]) (.array1 ([1, 2] ++ [3])) := by
  have hs : List.ofFn (Fin.append ![(1 : ℂ)] ![(2 : ℂ), 3]) = List.ofFn fun i => ((![(1 : ℝ), 2, 3] i : ℝ) : ℂ) := by
    rw [List.ofFn_fin_append]
    simp
  obtain ⟨W, hW, -⟩ := C35_diagonal (DataVec.join ⟨false, ![3]⟩ ⟨false, ![5, 6]⟩ : DataVec (1 + 2)) rfl _ _
    (IsSigma.vector ![(1 : ℝ), 2, 3] (by intro i; fin_cases i <;> simp))
  refine ⟨⟨DataVec.join ⟨false, ![3]⟩ ⟨false, ![5, 6]⟩, W, .synthesis, some identityTransform,
    some ⟨pathForward (blockMatrix !![1, 2] !![4; 5]), pathAdjoint (blockMatrix !![1, 2] !![4; 5])⟩, some (2 + 1)⟩,
    _, _, _, .vec _ _ _, .some _ _ _ (C143_path_integrals _ _), ?_, rfl, .vector _ _ rfl rfl, rfl, .array _ _ rfl rfl⟩
  unfold ForwardOp.init
  rw [hs, hW]
  simp [bind, Except.bind, Setting.parse]

/-! ## PxMALA -/

open Classical in
/-- One PxMALA iteration from 0 with step size 1/2 when the data are 0, the standard deviations 1 and the prior is flat. -/
theorem flat_iteration {n : ℕ} (F : ForwardOp n) (Pr : L1 ℂ) (par : Params) (hmu : par.mu = 0) (hc : par.complex = false)
    (hns : 0 < par.nsamples) (hdat : F.data.vals = fun _ => 0) (hcov : F.invcov = Matrix.diagonal (fun _ => ((1 / (1 : ℝ) ^ 2 : ℝ) : ℂ)))
    (tot : Total (⟨F, Pr.toPrior, par, n⟩ : Sampler n) n (fun x => x) (fun y i => (y i - F.data.vals i) / (((1 : ℝ) ^ 2 : ℝ) : ℂ))
      (fun x i => softEntry (x i) 0) (fun x => ∑ i, ‖x i‖)) (R : Rng) (r : R.σ) (A0 : Arrays) (hA : A0.Shaped par.nsamples) :
    ∃ st st' : MalaSt R,
      malaInit (⟨F, Pr.toPrior, par, n⟩ : Sampler n) R (1 / 2) r (.array1 (List.ofFn fun _ : Fin n => (0 : ℂ))) = .ok st ∧
      malaBody (⟨F, Pr.toPrior, par, n⟩ : Sampler n) R false A0 st = .ok st' ∧
      st'.cur.X = if acceptTest (R.rand (R.randn r n).2).1
          ((175 / 1024 * (∑ i, (R.randn r n).1 i ^ 2) ^ 2 - ∑ i, (R.randn r n).1 i ^ 2 : ℝ) : ℂ)
        then List.ofFn fun i => (((R.randn r n).1 i : ℝ) : ℂ) else List.ofFn fun _ : Fin n => (0 : ℂ) := by
  set M : Sampler n := ⟨F, Pr.toPrior, par, n⟩ with hM
  set fwd : (Fin n → ℂ) → (Fin n → ℂ) := fun x => x
  set grad : (Fin n → ℂ) → (Fin n → ℂ) := fun y i => (y i - F.data.vals i) / (((1 : ℝ) ^ 2 : ℝ) : ℂ) with hgrad
  set prox : (Fin n → ℂ) → (Fin n → ℂ) := fun x i => softEntry (x i) 0 with hprox
  set pri : (Fin n → ℂ) → ℝ := fun x => ∑ i, ‖x i‖
  set w : Fin n → ℝ := (R.randn r n).1 with hw
  have hG : ∀ x : Fin n → ℂ, gradVec M.par.lmda fwd grad prox x = fun i => -x i := by
    intro x
    funext i
    simp [gradVec, fwd, hgrad, hprox, hdat, soft_zero]
  have hmis : ∀ x : Fin n → ℝ, misfitOf M fwd (fun i => (x i : ℂ)) = ((∑ i, x i ^ 2 : ℝ) : ℂ) := by
    intro x
    simp only [misfitOf, hM, hdat, hcov, fwd]
    rw [inner_diagonal]
    push_cast
    refine Finset.sum_congr rfl fun i _ => ?_
    simp only [Pi.sub_apply, zero_sub, norm_neg, Complex.norm_real, Real.norm_eq_abs]
    rw [← Complex.ofReal_pow, sq_abs]
    push_cast
    ring
  have hlp : ∀ x : Fin n → ℝ, (cacheOf M fwd grad prox pri fun i => (x i : ℂ)).logpi = ((-∑ i, x i ^ 2 : ℝ) : ℂ) := by
    intro x
    simp only [cacheOf, hmis]
    have : M.par.mu = 0 := hmu
    rw [this]
    push_cast
    ring
  have hal : logAlphaVec M fwd grad prox pri (1 / 2) (fun _ => (0 : ℂ)) (fun i => (w i : ℂ)) =
      ((175 / 1024 * (∑ i, w i ^ 2) ^ 2 - ∑ i, w i ^ 2 : ℝ) : ℂ) := by
    have h0 := hlp fun _ => 0
    simp only [Complex.ofReal_zero] at h0
    simp only [logAlphaVec, hlp, h0, logtransVec, hG]
    have e1 : ∑ i, (0 - (w i : ℂ) - ((1 / 2 / 2 : ℝ) : ℂ) * -(w i : ℂ)) ^ 2 = 9 / 16 * ∑ i, (w i : ℂ) ^ 2 := by
      rw [Finset.mul_sum]
      refine Finset.sum_congr rfl fun i _ => ?_
      push_cast
      ring
    have e2 : ∑ i, ((w i : ℂ) - 0 - ((1 / 2 / 2 : ℝ) : ℂ) * -0) ^ 2 = ∑ i, (w i : ℂ) ^ 2 := by
      refine Finset.sum_congr rfl fun i _ => ?_
      ring
    rw [e1, e2]
    push_cast
    simp
    ring
  have hstart := start_array R tot r fun _ => (0 : ℂ)
  have hinit := init_vec M R tot (1 / 2) r r _ _ hstart
  have hdraw : drawVec R R.randn M.par.complex r n = (fun i => (w i : ℂ), (R.randn r n).2) := by
    have : M.par.complex = false := hc
    rw [this]
    rfl
  have hprop : (fun i => (w i : ℂ)) = ulaStep (1 / 2) (gradVec M.par.lmda fwd grad prox) (fun _ => (0 : ℂ))
      (drawVec R R.randn M.par.complex r n).1 := by
    rw [hdraw]
    funext i
    simp [ulaStep, hG]
  have hcore := coreStep_vec M R tot (⟨0, cacheOf M fwd grad prox pri fun _ => (0 : ℂ), r, 1 / 2, [], [1 / 2]⟩ : Core R)
    (fun _ => (0 : ℂ)) rfl (fun i => (w i : ℂ)) hprop (R.randn r n).2 (by rw [hdraw]) _ Iff.rfl
  obtain ⟨st', h1, h2⟩ := malaBody_total M R false A0 hA
    (⟨0, 0, cacheOf M fwd grad prox pri fun _ => (0 : ℂ), r, 1 / 2, [], [1 / 2], []⟩ : MalaSt R) _ hcore hns
    (by simp only; split <;> simp [cacheOf, hM]) (by simp only; split <;> simp [cacheOf])
  refine ⟨_, st', hinit, h1, ?_⟩
  have h3 : st'.cur = (st'.core).cur := rfl
  rw [h3, h2]
  simp only [hal]
  split <;> rfl

/-- The generator used in the refutation: the numbers 1, 10, 10, … and the uniform number `e^{-1/2}`. -/
noncomputable def tenRng : Rng :=
  ⟨Unit, fun s _ => (fun i => if i.val = 0 then 1 else 10, s), fun s _ => (fun i => if i.val = 0 then 1 else 10, s), fun s => (Real.exp (-(1 / 2)), s)⟩

/-- C143 is violated by PxMALA, which accepts or rejects the two proposals together: two denoising problems with one parameter each, data
0, standard deviation 1 and a flat prior, started at 0.  Sampled separately the first problem rejects the proposal 1 and stays at 0;
sampled together, with the same random numbers, its sample is 1, because the other problem is proposed 10. -/
theorem C143_pxmala_refuted (st : String) (hst : st = "analysis" ∨ st = "synthesis") (par : Params) (hl : par.lmda ≠ 0) (hmu : par.mu = 0)
    (hc : par.complex = false) (hns : 0 < par.nsamples) (hδ : par.delta = 1 / 2) :
    ∃ (F : ForwardOp (1 + 1)) (F₁ : ForwardOp 1) (L L₁ : L1 ℂ) (M : Sampler (1 + 1)) (M₁ : Sampler 1) (A A₁ : Arrays),
      ForwardOp.init (DataVec.join ⟨false, fun _ => 0⟩ ⟨false, fun _ => 0⟩) (.num ((1 : ℝ) : ℂ) false) st (some identityTransform)
        (some (identityMeasurement (1 + 1) (1 + 1))) (some (1 + 1)) = .ok F ∧
      ForwardOp.init ⟨false, fun _ => 0⟩ (.num ((1 : ℝ) : ℂ) false) st (some identityTransform) (some (identityMeasurement 1 1)) (some 1) = .ok F₁ ∧
      L1.init st identityTransform.op identityTransform.adj (.scalar 0) = .ok L ∧
      L1.init st identityTransform.op identityTransform.adj (.scalar 0) = .ok L₁ ∧ PriorJoin 1 1 L₁.toPrior L₁.toPrior L.toPrior ∧
      samplerInit F L.toPrior par = .ok (M, A) ∧ samplerInit F₁ L₁.toPrior par = .ok (M₁, A₁) ∧
      ∃ (r : tenRng.σ) (s0 s1 : MalaSt tenRng) (t0 t1 : MalaSt (tenRng.left 1)),
        malaInit M tenRng M.par.delta r (.array1 ([0] ++ [0])) = .ok s0 ∧ malaBody M tenRng false A s0 = .ok s1 ∧
        malaInit M₁ (tenRng.left 1) M₁.par.delta r (.array1 [0]) = .ok t0 ∧ malaBody M₁ (tenRng.left 1) false A₁ t0 = .ok t1 ∧
        s1.cur.X = [1, 10] ∧ t1.cur.X = [0] := by
  classical
  obtain ⟨F, L, hF, hL, hdat, hcov, hnp, tot⟩ := denoise_total (DataVec.join ⟨false, fun _ => 0⟩ ⟨false, fun _ => 0⟩ : DataVec (1 + 1)) rfl
    (.num ((1 : ℝ) : ℂ) false) (fun _ => 1) (.scalar 1 one_pos) st hst 0
  obtain ⟨F₁, L₁, hF₁, hL₁, hdat₁, hcov₁, hnp₁, tot₁⟩ := denoise_total (⟨false, fun _ => 0⟩ : DataVec 1) rfl (.num ((1 : ℝ) : ℂ) false)
    (fun _ => 1) (.scalar 1 one_pos) st hst 0
  have hd : F.data.vals = fun _ => 0 := by
    rw [hdat]
    funext j
    refine Fin.addCases (fun i => ?_) (fun i => ?_) j
    · simp only [DataVec.join, Fin.append_left]
    · simp only [DataVec.join, Fin.append_right]
  have hd₁ : F₁.data.vals = fun _ => 0 := by rw [hdat₁]
  have hPJ : PriorJoin 1 1 L₁.toPrior L₁.toPrior L.toPrior := by
    obtain ⟨L₁', L₂', e1, e2, h⟩ := C143_l1 (p₁ := 1) (p₂ := 1) st (fun _ => C143_identity.1) (fun _ => ⟨rfl, rfl⟩) (.scalar 0) L hL
    rw [Except.ok.inj (e1.symm.trans hL₁), Except.ok.inj (e2.symm.trans hL₁)] at h
    exact h
  have i1 := flat_iteration F L par hmu hc hns hd hcov (by rw [hdat]; exact tot par hl) tenRng () (initArrays ⟨F, L.toPrior, par, 1 + 1⟩)
    (initArrays_shaped _)
  have i2 := flat_iteration F₁ L₁ par hmu hc hns hd₁ hcov₁ (by rw [hdat₁]; exact tot₁ par hl) (tenRng.left 1) () (initArrays ⟨F₁, L₁.toPrior, par, 1⟩)
    (initArrays_shaped _)
  obtain ⟨s0, s1, a1, a2, a3⟩ := i1
  obtain ⟨t0, t1, b1, b2, b3⟩ := i2
  refine ⟨F, F₁, L, L₁, ⟨F, L.toPrior, par, 1 + 1⟩, ⟨F₁, L₁.toPrior, par, 1⟩, initArrays ⟨F, L.toPrior, par, 1 + 1⟩,
    initArrays ⟨F₁, L₁.toPrior, par, 1⟩, hF, hF₁, hL, hL₁, hPJ, ?_, ?_, (), s0, s1, t0, t1, ?_, a2, ?_, b2, ?_, ?_⟩
  · unfold samplerInit
    rw [hnp]
  · unfold samplerInit
    rw [hnp₁]
  · show malaInit _ _ par.delta _ _ = _
    rw [hδ, ← a1]
    simp
  · show malaInit _ _ par.delta _ _ = _
    rw [hδ, ← b1]
    simp
  · rw [a3, if_pos]
    · simp [tenRng]
    · right; left
      simp [tenRng, Fin.sum_univ_succ]
      norm_num
  · rw [b3, if_neg]
    · simp
    · unfold acceptTest
      simp [tenRng, Rng.left, Rng.part]
      norm_num [Real.exp_ne_zero]

example : ∃ par : Params, par.lmda ≠ 0 ∧ par.mu = 0 ∧ par.complex = false ∧ 0 < par.nsamples ∧ par.delta = 1 / 2 :=
  ⟨⟨1, 1 / 2, 0, 1, 3, 0, 1, false, 0, ["chain"]⟩, by norm_num, rfl, rfl, by norm_num, rfl⟩

end Pxmcmc
