import Verif.Props.Measurements

/-! # C104: what lensing data determine -/

namespace Pxmcmc

/-- The harmonic coefficients of degree two and more (the first four are degrees zero and one). -/
def Spec.highDegrees {n : ℕ} (x : Fin n → ℂ) : Fin n → ℂ := fun i => if i.val < 4 then 0 else x i

theorem harmonic_ofFn (L : ℕ) (k : List ℝ) (hk : wlHarmonicInit L = .ok k) : ∃ κ : Fin (L ^ 2) → ℝ, k = List.ofFn κ ∧
    ∀ i, κ i ≠ 0 := by
  have hL : 1 ≤ L := by
    by_contra h
    rw [C29_rejects _ (by omega)] at hk
    cases hk
  obtain ⟨k', hk', hlen, -⟩ := C29_kernel L hL
  obtain rfl : k' = k := by rw [hk'] at hk; exact Except.ok.inj hk
  obtain ⟨κ, rfl⟩ := exists_ofFn k' hlen
  exact ⟨κ, rfl, fun i => (kernel_bounds L _ hk (κ i) (List.mem_ofFn.mpr ⟨i, rfl⟩)).1⟩

/-- `WeakLensing.forward` written out: harmonic coefficients, kernel on degrees two and more, shear map, unmasked pixels,
weights. -/
theorem WL_forward_eq (L : ℤ) (mask : Option (NdArr Bool)) (ngal : Option (NdArr ℝ)) (w : WL)
    (hm : ∀ m, mask = some m → m.WF) (hg : ∀ g, ngal = some g → g.WF) (h : WL.init L mask ngal = .ok w) (T : Ssht)
    (hi : ∀ f, f.length = w.L ^ 2 → (T.inv2 f).length = w.L * (2 * w.L - 1)) :
    ∃ κ : Fin (w.L ^ 2) → ℝ, w.kernel = List.ofFn κ ∧ (∀ i, κ i ≠ 0) ∧ ∀ kappa, kappa.length = w.L * (2 * w.L - 1) →
      ∀ x : Fin (w.L ^ 2) → ℂ, T.fwd0 kappa = List.ofFn x →
      w.forward T kappa = .ok (((keep (T.inv2 (List.ofFn fun i => if i.val < 4 then 0 else x i * (κ i : ℂ)))
        w.mask.data).zip w.invCov).map fun p => p.1 * (p.2 : ℂ)) := by
  obtain ⟨hker, hshape, hwf, hic⟩ := WL_init_spec L mask ngal w hm hg h
  have hml : w.mask.data.length = w.L * (2 * w.L - 1) := by
    unfold NdArr.WF at hwf
    rw [hwf, hshape]; simp [WL.shape]
  obtain ⟨κ, hκ, hne⟩ := harmonic_ofFn w.L w.kernel hker
  refine ⟨κ, hκ, hne, fun kappa hk x hx => ?_⟩
  have l3 : (T.inv2 (List.ofFn fun i => if i.val < 4 then 0 else x i * (κ i : ℂ))).length = w.mask.data.length := by
    rw [hi _ (by simp), hml]
  unfold WL.forward
  rw [if_neg (not_not.mpr hk), hx]
  unfold wlHarmonicForward
  have hM : harmonicMapping (List.ofFn κ) (List.ofFn x) =
      .ok (List.ofFn fun i => if i.val < 4 then 0 else x i * (κ i : ℂ)) := harmonicMapping_ofFn κ x
  simp only [hκ, hM, bind, Except.bind]
  rw [maskForward_eq _ _ hwf hshape _ l3]
  simp only
  unfold covWeight
  rw [bcast_eq _ _ (by rw [hic, keep_length _ _ l3])]
  rfl

/-- C104: two convergence maps that differ only in degrees zero and one give the same data, for every mask and all galaxy
counts. -/
theorem C104_mass_sheet (L : ℤ) (mask : Option (NdArr Bool)) (ngal : Option (NdArr ℝ)) (w : WL)
    (hm : ∀ m, mask = some m → m.WF) (hg : ∀ g, ngal = some g → g.WF) (h : WL.init L mask ngal = .ok w) (T : Ssht)
    (hi : ∀ f, f.length = w.L ^ 2 → (T.inv2 f).length = w.L * (2 * w.L - 1))
    (k1 k2 : List ℂ) (h1 : k1.length = w.L * (2 * w.L - 1)) (h2 : k2.length = w.L * (2 * w.L - 1))
    (x y : Fin (w.L ^ 2) → ℂ) (hx : T.fwd0 k1 = List.ofFn x) (hy : T.fwd0 k2 = List.ofFn y)
    (hxy : Spec.highDegrees x = Spec.highDegrees y) :
    ∃ d, w.forward T k1 = .ok d ∧ w.forward T k2 = .ok d := by
  obtain ⟨κ, -, -, H⟩ := WL_forward_eq L mask ngal w hm hg h T hi
  refine ⟨_, H k1 h1 x hx, ?_⟩
  rw [H k2 h2 y hy]
  have : (fun i : Fin (w.L ^ 2) => if i.val < 4 then 0 else y i * (κ i : ℂ)) =
      fun i => if i.val < 4 then 0 else x i * (κ i : ℂ) := by
    funext i
    have := congrFun hxy i
    simp only [Spec.highDegrees] at this
    split
    · rfl
    · rename_i hi4
      simp only [hi4, if_false] at this
      rw [this]
  rw [this]

theorem keep_true {α : Type} (f : List α) (m : List Bool) (hl : f.length = m.length) (h : ∀ b ∈ m, b = true) :
    keep f m = f := by
  unfold keep
  induction m generalizing f with
  | nil => cases f with
    | nil => rfl
    | cons a f => simp at hl
  | cons b m ih => cases f with
    | nil => simp at hl
    | cons a f =>
      have hb := h b (by simp)
      subst hb
      simp only [List.zip_cons_cons, List.filter_cons, if_true, List.map_cons]
      rw [ih f (by simpa using hl) fun b hb => h b (by simp [hb])]

theorem weighted_inj (c : List ℝ) (hc : ∀ v ∈ c, v ≠ 0) (a b : List ℂ) (ha : a.length = c.length) (hb : b.length = c.length)
    (h : ((a.zip c).map fun p => p.1 * (p.2 : ℂ)) = (b.zip c).map fun p => p.1 * (p.2 : ℂ)) : a = b := by
  induction c generalizing a b with
  | nil =>
    rw [List.length_nil] at ha hb
    rw [List.length_eq_zero_iff.mp ha, List.length_eq_zero_iff.mp hb]
  | cons v c ih =>
    obtain ⟨a0, a, rfl⟩ := List.exists_cons_of_length_eq_add_one ha
    obtain ⟨b0, b, rfl⟩ := List.exists_cons_of_length_eq_add_one hb
    simp only [List.zip_cons_cons, List.map_cons, List.cons.injEq] at h
    have hv : (v : ℂ) ≠ 0 := by exact_mod_cast hc v (by simp)
    rw [mul_right_cancel₀ hv h.1, ih (fun u hu => hc u (by simp [hu])) a b (by simpa using ha) (by simpa using hb) h.2]

/-- C104: without masked pixels and with weights that are not zero, the data determine every degree from two on (the spin-2
transform determines its coefficients). -/
theorem C104_full_sky (L : ℤ) (mask : Option (NdArr Bool)) (ngal : Option (NdArr ℝ)) (w : WL)
    (hm : ∀ m, mask = some m → m.WF) (hg : ∀ g, ngal = some g → g.WF) (h : WL.init L mask ngal = .ok w)
    (hfull : ∀ b ∈ w.mask.data, b = true) (hpos : ∀ v ∈ w.invCov, v ≠ 0) (T : Ssht)
    (hi : ∀ f, f.length = w.L ^ 2 → (T.inv2 f).length = w.L * (2 * w.L - 1))
    (hinj : ∀ x y : Fin (w.L ^ 2) → ℂ, T.inv2 (List.ofFn (Spec.highDegrees x)) = T.inv2 (List.ofFn (Spec.highDegrees y)) →
      Spec.highDegrees x = Spec.highDegrees y)
    (k1 k2 : List ℂ) (h1 : k1.length = w.L * (2 * w.L - 1)) (h2 : k2.length = w.L * (2 * w.L - 1))
    (x y : Fin (w.L ^ 2) → ℂ) (hx : T.fwd0 k1 = List.ofFn x) (hy : T.fwd0 k2 = List.ofFn y) :
    w.forward T k1 = w.forward T k2 ↔ Spec.highDegrees x = Spec.highDegrees y := by
  constructor
  swap
  · intro hxy
    obtain ⟨d, e1, e2⟩ := C104_mass_sheet L mask ngal w hm hg h T hi k1 k2 h1 h2 x y hx hy hxy
    rw [e1, e2]
  obtain ⟨hker, hshape, hwf, hic⟩ := WL_init_spec L mask ngal w hm hg h
  have hml : w.mask.data.length = w.L * (2 * w.L - 1) := by
    unfold NdArr.WF at hwf
    rw [hwf, hshape]; simp [WL.shape]
  obtain ⟨κ, -, hne, H⟩ := WL_forward_eq L mask ngal w hm hg h T hi
  rw [H k1 h1 x hx, H k2 h2 y hy]
  intro e
  have l3 : ∀ z : Fin (w.L ^ 2) → ℂ, (T.inv2 (List.ofFn z)).length = w.mask.data.length := by
    intro z
    rw [hi _ (by simp), hml]
  have e' := weighted_inj w.invCov hpos _ _ (by rw [hic, keep_length _ _ (l3 _)]) (by rw [hic, keep_length _ _ (l3 _)])
    (Except.ok.inj e)
  rw [keep_true _ _ (l3 _) hfull, keep_true _ _ (l3 _) hfull] at e'
  have e2 := hinj (fun i => x i * (κ i : ℂ)) (fun i => y i * (κ i : ℂ)) e'
  funext i
  have := congrFun e2 i
  simp only [Spec.highDegrees] at this ⊢
  split
  · rfl
  · rename_i hi4
    simp only [hi4, if_false] at this
    exact mul_right_cancel₀ (by exact_mod_cast hne i) this

/-- C104: for an unmasked sky without galaxy counts, the spherical Kaiser–Squires estimate of the noise-free data (their spin-2
transform passed to `sks_estimate`) is the convergence without degrees zero and one. -/
theorem C104_kaiser_squires (L : ℤ) (w : WL) (h : WL.init L none none = .ok w) (T : Ssht) (fwd2 : List ℂ → List ℂ)
    (hi : ∀ f, f.length = w.L ^ 2 → (T.inv2 f).length = w.L * (2 * w.L - 1))
    (hround : ∀ x : Fin (w.L ^ 2) → ℂ, fwd2 (T.inv2 (List.ofFn (Spec.highDegrees x))) = List.ofFn (Spec.highDegrees x))
    (kappa : List ℂ) (hk : kappa.length = w.L * (2 * w.L - 1)) (x : Fin (w.L ^ 2) → ℂ) (hx : T.fwd0 kappa = List.ofFn x) :
    ∃ d, w.forward T kappa = .ok d ∧ sksEstimate w.kernel (fwd2 d) = .ok (List.ofFn (Spec.highDegrees x)) := by
  obtain ⟨hker, hshape, hwf, hic⟩ := WL_init_spec L none none w (by simp) (by simp) h
  have hml : w.mask.data.length = w.L * (2 * w.L - 1) := by
    unfold NdArr.WF at hwf
    rw [hwf, hshape]; simp [WL.shape]
  obtain ⟨κ, hκ, hne, H⟩ := WL_forward_eq L none none w (by simp) (by simp) h T hi
  have hfull : (∀ b ∈ w.mask.data, b = true) ∧ ∀ v ∈ w.invCov, v = 1 := by
    unfold WL.init at h
    obtain ⟨k, -, h⟩ := bind_ok h
    obtain ⟨ic, hic', h⟩ := bind_ok h
    split at h
    · cases h
    · injection h with h
      subst h
      constructor
      · intro b hb
        exact List.eq_of_mem_replicate hb
      · intro v hv
        simp only [wlInvCov, wlMask] at hic'
        rw [maskForward_eq [L.toNat, 2 * L.toNat - 1] ⟨[L.toNat, 2 * L.toNat - 1],
          List.replicate (L.toNat * (2 * L.toNat - 1)) true⟩ (by simp [NdArr.WF]) rfl _ (by simp)] at hic'
        injection hic' with hic'
        simp only at hv
        rw [← hic', keep_true _ _ (by simp) (fun b hb => List.eq_of_mem_replicate hb)] at hv
        exact List.eq_of_mem_replicate hv
  have l3 : ∀ z : Fin (w.L ^ 2) → ℂ, (T.inv2 (List.ofFn z)).length = w.mask.data.length := by
    intro z
    rw [hi _ (by simp), hml]
  have hone : ∀ (c : List ℝ) (a : List ℂ), (∀ v ∈ c, v = 1) → a.length = c.length →
      ((a.zip c).map fun p => p.1 * (p.2 : ℂ)) = a := by
    intro c
    induction c with
    | nil => intro a _ ha; rw [List.length_nil] at ha; rw [List.length_eq_zero_iff.mp ha]; rfl
    | cons v c ih =>
      intro a hc ha
      obtain ⟨a0, a, rfl⟩ := List.exists_cons_of_length_eq_add_one ha
      simp only [List.zip_cons_cons, List.map_cons]
      rw [ih a (fun u hu => hc u (by simp [hu])) (by simpa using ha), hc v (by simp)]
      simp
  refine ⟨_, H kappa hk x hx, ?_⟩
  rw [hone _ _ hfull.2 (by rw [hic, keep_length _ _ (l3 _)]), keep_true _ _ (l3 _) hfull.1]
  have hr := hround fun i => x i * (κ i : ℂ)
  unfold Spec.highDegrees at hr
  rw [hr]
  unfold sksEstimate
  rw [hκ, harmonicInverseMapping_ofFn]
  congr 2
  funext i
  unfold Spec.highDegrees
  have hi : (κ i : ℂ) ≠ 0 := by exact_mod_cast hne i
  by_cases hi4 : i.val < 4
  · simp [hi4]
  · simp only [hi4, if_false]
    exact mul_div_cancel_right₀ _ hi

/-- C104: the adjoint, and so every likelihood gradient in image space, has no component along maps of degrees zero and
one. -/
theorem C104_gradient (L : ℤ) (mask : Option (NdArr Bool)) (ngal : Option (NdArr ℝ)) (w : WL)
    (hm : ∀ m, mask = some m → m.WF) (hg : ∀ g, ngal = some g → g.WF) (h : WL.init L mask ngal = .ok w) (T : Ssht)
    (hT : SshtAdjoint T w.L) (gamma sheet : List ℂ) (hgm : gamma.length = w.mask.data.count true)
    (hs : sheet.length = w.L * (2 * w.L - 1)) (x : Fin (w.L ^ 2) → ℂ) (hx : T.fwd0 sheet = List.ofFn x)
    (hx0 : Spec.highDegrees x = 0) :
    ∃ b, w.adjoint T gamma = .ok b ∧ Spec.listInner b sheet = 0 := by
  obtain ⟨hker, hshape, hwf, hic⟩ := WL_init_spec L mask ngal w hm hg h
  have hml : w.mask.data.length = w.L * (2 * w.L - 1) := by
    unfold NdArr.WF at hwf
    rw [hwf, hshape]; simp [WL.shape]
  obtain ⟨κ, hκ, -⟩ := harmonic_ofFn w.L w.kernel hker
  obtain ⟨c, hc⟩ := exists_ofFn w.invCov hic
  obtain ⟨g, rfl⟩ := exists_ofFn gamma hgm
  have l2 : (scatter w.mask.data (List.ofFn fun i => g i * (c i : ℂ))).length = w.L * (2 * w.L - 1) := by
    rw [scatter_length, hml]
  obtain ⟨y, hy⟩ := exists_ofFn _ (hT.invAdj2_len _ l2)
  refine ⟨T.fwdAdj0 (List.ofFn fun i => if i.val < 4 then 0 else y i * (κ i : ℂ)), ?_, ?_⟩
  · unfold WL.adjoint
    rw [covWeight_ofFn w c hc]
    simp only [bind, Except.bind]
    have : maskAdjoint w.mask.data (List.ofFn fun i => g i * (c i : ℂ)) =
        .ok (scatter w.mask.data (List.ofFn fun i => g i * (c i : ℂ))) := by simp [maskAdjoint]
    rw [this]
    simp only [wlHarmonicAdjoint, hy, hκ]
    rw [harmonicMapping_ofFn]
    rfl
  · rw [← hT.fwd_adj sheet _ hs (by simp), hx, listInner_ofFn]
    unfold Spec.inner
    apply Finset.sum_eq_zero
    intro i _
    have := congrFun hx0 i
    simp only [Spec.highDegrees] at this
    by_cases hi4 : i.val < 4
    · simp [hi4]
    · simp only [hi4, if_false] at this
      rw [this]
      simp

/-! The hypotheses hold for a stand-in for pyssht at `L = 3`: nine coefficients are the first nine of fifteen pixels. -/

example : ∃ (w : WL) (T : Ssht), WL.init 3 none none = .ok w ∧ SshtAdjoint T w.L ∧ (∀ b ∈ w.mask.data, b = true) ∧
    (∀ v ∈ w.invCov, v ≠ 0) ∧
    (∀ x y : Fin (w.L ^ 2) → ℂ, T.inv2 (List.ofFn (Spec.highDegrees x)) = T.inv2 (List.ofFn (Spec.highDegrees y)) →
      Spec.highDegrees x = Spec.highDegrees y) ∧
    (∀ x : Fin (w.L ^ 2) → ℂ, (T.inv2 (List.ofFn (Spec.highDegrees x))).take (w.L ^ 2) = List.ofFn (Spec.highDegrees x)) ∧
    ∃ sheet x, sheet.length = w.L * (2 * w.L - 1) ∧ sheet ≠ List.replicate 15 0 ∧ T.fwd0 sheet = List.ofFn x ∧
      Spec.highDegrees x = (0 : Fin (w.L ^ 2) → ℂ) := by
  obtain ⟨k, hk, -⟩ := C29_kernel 3 (by norm_num)
  have hk : wlHarmonicInit 3 = .ok k := hk
  have key : ∀ x : List ℂ, x.length = 9 → (x ++ List.replicate 6 (0 : ℂ)).take 9 = x := by
    intro x hx
    rw [List.take_append_of_le_length (by omega), List.take_of_length_le (by omega)]
  have inn : ∀ f g : List ℂ, f.length = 15 → g.length = 9 →
      Spec.listInner g (f.take 9) = Spec.listInner (g ++ List.replicate 6 0) f := by
    intro f g hf hg
    obtain ⟨a, rfl⟩ := exists_ofFn f hf
    obtain ⟨b, rfl⟩ := exists_ofFn g hg
    simp [Spec.listInner, List.ofFn_succ]
  have inn2 : ∀ f g : List ℂ, f.length = 9 → g.length = 15 →
      Spec.listInner g (f ++ List.replicate 6 0) = Spec.listInner (g.take 9) f := by
    intro f g hf hg
    obtain ⟨a, rfl⟩ := exists_ofFn f hf
    obtain ⟨b, rfl⟩ := exists_ofFn g hg
    simp [Spec.listInner, List.ofFn_succ]
  refine ⟨⟨3, k, ⟨[3, 5], List.replicate 15 true⟩, List.replicate 15 1⟩,
    ⟨fun f => f.take 9, fun g => g ++ List.replicate 6 0, fun f => f.take 9, fun g => g ++ List.replicate 6 0⟩, ?_, ?_, ?_, ?_,
    ?_, ?_, (1 :: List.replicate 14 0), fun i => if i.val = 0 then 1 else 0, ?_, ?_, ?_, ?_⟩
  · simp [WL.init, wlMask, wlInvCov, hk, bind, Except.bind, maskForward, boolIndex, selectBlocks]
    rfl
  · exact ⟨fun f hf => by simp [hf], fun f hf => by simp [hf], fun f hf => by simp [hf], fun f hf => by simp [hf],
      fun f g hf hg => inn f g hf hg, fun f g hf hg => inn2 f g hf hg⟩
  · exact fun b hb => List.eq_of_mem_replicate hb
  · intro v hv
    rw [List.eq_of_mem_replicate hv]
    exact one_ne_zero
  · intro x y e
    exact List.ofFn_injective (List.append_cancel_right e)
  · intro x
    exact key _ (by simp)
  · rfl
  · simp [List.replicate_succ]
  · simp [List.ofFn_succ, List.replicate_succ]
  · funext i
    simp only [Spec.highDegrees, Pi.zero_apply]
    split
    · rfl
    · rename_i hi4
      rw [if_neg (by omega)]

end Pxmcmc
