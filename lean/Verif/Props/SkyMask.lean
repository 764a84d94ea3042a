import Verif.Model.SkyMask
import Verif.Props.Areas
import Mathlib.Analysis.SpecialFunctions.Trigonometric.Bounds
import Mathlib.Analysis.SpecialFunctions.Complex.Arg
import Mathlib.Topology.Order.Lattice
import Mathlib.Analysis.Real.Pi.Bounds

/-!
# C150: the mask covers the galactic plane and the ecliptic
-/

namespace Pxmcmc

open Real Filter Topology

/-! ## Specification -/

/-- The direction of the pixel with colatitude `θ` and longitude `φ`. -/
noncomputable def pixelDir (θ φ : ℝ) : Fin 3 → ℝ := ![sin θ * cos φ, sin θ * sin φ, cos θ]

/-- The angle between direction `x` and the plane with pole `e` is less than `w` degrees. -/
def NearPlane (e : Fin 3 → ℝ) (w : ℝ) (x : Fin 3 → ℝ) : Prop := arcsin |dot3 e x| * 180 / π < w

/-- Entry `(t, p)` of a mask is 0. -/
def MaskedAt (m : List (List ℝ)) (t p : ℕ) : Prop := ∃ row, m[t]? = some row ∧ row[p]? = some 0

/-- Direction of entry `(t, p)` of a map of bandlimit `L` (MW sampling). -/
noncomputable def mwDir (L t p : ℕ) : Fin 3 → ℝ := pixelDir ((2 * t + 1) * π / (2 * L - 1)) (2 * π * p / (2 * L - 1))

/-- The north galactic pole as astropy has it (right ascension 192.859°, declination 27.128°), to two digits. -/
def IsNgp (n : Fin 3 → ℝ) : Prop :=
  dot3 n n = 1 ∧ -0.88 ≤ n 0 ∧ n 0 ≤ -0.86 ∧ -0.21 ≤ n 1 ∧ n 1 ≤ -0.19 ∧ 0.45 ≤ n 2 ∧ n 2 ≤ 0.46

/-! ## What is masked -/

theorem arcsin_abs (x : ℝ) : arcsin |x| = |arcsin x| := by
  rcases le_total 0 x with h | h
  · rw [abs_of_nonneg h, abs_of_nonneg (arcsin_nonneg.mpr h)]
  · rw [abs_of_nonpos h, abs_of_nonpos (arcsin_nonpos.mpr h), arcsin_neg]

theorem abs_degrees (x : ℝ) : |degrees x| = |x| * 180 / π := by
  unfold degrees
  rw [abs_div, abs_mul, abs_of_pos pi_pos, abs_of_pos (by norm_num : (0 : ℝ) < 180)]

/-- The code hands the point opposite to the pixel to astropy. -/
theorem lonLatDir_opposite (θ φ : ℝ) (i : Fin 3) : lonLatDir (φ * 180 / π - 180) (θ * 180 / π - 90) i = -pixelDir θ φ i := by
  have h1 : (θ * 180 / π - 90) * π / 180 = θ - π / 2 := by field_simp; ring
  have h2 : (φ * 180 / π - 180) * π / 180 = φ - π := by field_simp
  fin_cases i <;> simp [lonLatDir, pixelDir, h1, h2, cos_sub_pi_div_two, sin_sub_pi_div_two]

theorem abs_galacticLat (n : Fin 3 → ℝ) (θ φ : ℝ) :
    |galacticLat n (φ * 180 / π - 180) (θ * 180 / π - 90)| = arcsin |dot3 n (pixelDir θ φ)| * 180 / π := by
  unfold galacticLat
  have : dot3 n (lonLatDir (φ * 180 / π - 180) (θ * 180 / π - 90)) = -dot3 n (pixelDir θ φ) := by
    simp only [dot3, lonLatDir_opposite]; ring
  rw [abs_degrees, this, arcsin_neg, abs_neg, arcsin_abs]

theorem abs_latitude (θ φ : ℝ) (h0 : 0 ≤ θ) (h1 : θ ≤ π) :
    |90 - θ * 180 / π| = arcsin |dot3 ![0, 0, 1] (pixelDir θ φ)| * 180 / π := by
  have e : dot3 ![0, 0, 1] (pixelDir θ φ) = sin (π / 2 - θ) := by simp [dot3, pixelDir, sin_pi_div_two_sub]
  rw [e, arcsin_abs, arcsin_sin (by linarith) (by linarith)]
  have : (90 - θ * 180 / π) = (π / 2 - θ) * 180 / π := by field_simp; ring
  rw [this, abs_div, abs_mul, abs_of_pos pi_pos, abs_of_pos (by norm_num : (0 : ℝ) < 180)]

theorem mwTheta_range {L t : ℕ} (ht : t < L) :
    0 ≤ (2 * t + 1) * π / (2 * (L : ℝ) - 1) ∧ (2 * t + 1) * π / (2 * (L : ℝ) - 1) ≤ π := by
  have h : (t : ℝ) + 1 ≤ L := by exact_mod_cast ht
  have ht0 : (0 : ℝ) ≤ t := Nat.cast_nonneg t
  have hp := pi_pos
  constructor
  · apply div_nonneg <;> nlinarith
  · rw [div_le_iff₀ (by linarith)]; nlinarith

/-- C150, the part that holds: a pixel is masked iff its own direction is less than `size` degrees from the plane `θ = 90°`
of the map or less than `size` degrees from the galactic plane, for maps in equatorial coordinates.  (The code converts the
opposite point of the sky, which makes no difference.) -/
theorem C150_masked_partial (ngp : Fin 3 → ℝ) (L : ℕ) (size : ℝ) (t p : ℕ) (ht : t < L) (hp : p < 2 * L - 1) :
    MaskedAt (buildMask (galacticLat ngp) L size) t p ↔
      NearPlane ![0, 0, 1] size (mwDir L t p) ∨ NearPlane ngp size (mwDir L t p) := by
  obtain ⟨row, v, h1, -, h3, -, h5⟩ := (C26_mask (galacticLat ngp) L size).2 t p ht hp
  have hm : MaskedAt (buildMask (galacticLat ngp) L size) t p ↔ v = 0 := by
    constructor
    · rintro ⟨r, hr, hv⟩
      rw [h1] at hr; injection hr with hr; subst hr
      rw [h3] at hv; injection hv
    · intro hv; exact ⟨row, h1, by rw [h3, hv]⟩
  obtain ⟨k1, k2⟩ := mwTheta_range ht
  rw [hm, h5]
  unfold Masked NearPlane mwDir
  rw [abs_galacticLat, abs_latitude _ (2 * π * p / (2 * L - 1)) k1 k2]

/-! ## The width -/

theorem mwDir_two : mwDir 2 0 1 = ![-(√3 / 4), 3 / 4, 1 / 2] := by
  have h3 : √3 * √3 = 3 := mul_self_sqrt (by norm_num)
  have h : (2 * ((0 : ℕ) : ℝ) + 1) * π / (2 * ((2 : ℕ) : ℝ) - 1) = π / 3 := by push_cast; ring
  have h' : 2 * π * ((1 : ℕ) : ℝ) / (2 * ((2 : ℕ) : ℝ) - 1) = π - π / 3 := by push_cast; ring
  unfold mwDir pixelDir
  rw [h, h', cos_pi_sub, sin_pi_sub, sin_pi_div_three, cos_pi_div_three]
  congr 1
  · ring
  · congr 1
    linarith

theorem ngp_away (n : Fin 3 → ℝ) (hn : IsNgp n) : 0.4 ≤ |dot3 n (mwDir 2 0 1)| := by
  obtain ⟨-, h1, h2, h3, h4, h5, h6⟩ := hn
  rw [mwDir_two]
  have s1 : 1.7 ≤ √3 := by apply le_sqrt_of_sq_le; norm_num
  refine le_trans ?_ (le_abs_self _)
  simp only [dot3, Matrix.cons_val_zero, Matrix.cons_val_one, Matrix.cons_val]
  nlinarith

theorem not_near {e x : Fin 3 → ℝ} {w y : ℝ} (hw0 : 0 ≤ w) (hw : w ≤ 90) (hy : sin (w * π / 180) ≤ y) (h : y ≤ |dot3 e x|) :
    ¬ NearPlane e w x := by
  unfold NearPlane
  have hp := pi_pos
  rw [not_lt, le_div_iff₀ pi_pos]
  have h1 : w * π / 180 ≤ arcsin |dot3 e x| := by
    rw [← arcsin_sin (x := w * π / 180) (by nlinarith) (by nlinarith)]
    exact monotone_arcsin (hy.trans h)
  linarith

/-- C150 refuted (width): "size is the width of each mask in degrees" (utils.py:326).  With `size = 40` the pixel (0, 1) of
a map with `L = 2` is masked although it is more than 20 degrees from both planes. -/
theorem C150_width_refuted (ngp : Fin 3 → ℝ) (hn : IsNgp ngp) :
    MaskedAt (buildMask (galacticLat ngp) 2 40) 0 1 ∧
      ¬ NearPlane ![0, 0, 1] (40 / 2) (mwDir 2 0 1) ∧ ¬ NearPlane ngp (40 / 2) (mwDir 2 0 1) := by
  have hp := pi_pos
  have hs : sin (40 / 2 * π / 180) ≤ 0.36 := by
    refine (sin_le (by positivity)).trans ?_
    have := pi_lt_d2
    linarith
  have hz : |dot3 ![0, 0, 1] (mwDir 2 0 1)| = 1 / 2 := by
    rw [mwDir_two]; simp [dot3]
  refine ⟨?_, ?_, ?_⟩
  · rw [C150_masked_partial ngp 2 40 0 1 (by norm_num) (by norm_num)]
    left
    unfold NearPlane
    have : arcsin (1 / 2) = π / 6 := by
      rw [← sin_pi_div_six, arcsin_sin (by linarith) (by linarith)]
    rw [hz, this, div_lt_iff₀ pi_pos]
    linarith
  · exact not_near (by norm_num) (by norm_num) hs (by rw [hz]; norm_num)
  · exact not_near (by norm_num) (by norm_num) hs (le_trans (by norm_num) (ngp_away ngp hn))

/-! ## The frame -/

/-- Every direction is that of some colatitude and longitude. -/
theorem exists_angles (x : Fin 3 → ℝ) (hx : dot3 x x = 1) :
    ∃ θ φ : ℝ, 0 ≤ θ ∧ θ ≤ π ∧ 0 ≤ φ ∧ φ < 2 * π ∧ pixelDir θ φ = x := by
  unfold dot3 at hx
  set z : ℂ := ⟨x 0, x 1⟩ with hz
  have hs : sin (arccos (x 2)) = ‖z‖ := by
    rw [sin_arccos, Complex.norm_eq_sqrt_sq_add_sq]
    congr 1
    simp only [hz]; nlinarith
  have hc : cos (arccos (x 2)) = x 2 := cos_arccos (by nlinarith [sq_nonneg (x 0), sq_nonneg (x 1)]) (by nlinarith [sq_nonneg (x 0), sq_nonneg (x 1)])
  have key : ∀ φ : ℝ, cos φ = cos z.arg → sin φ = sin z.arg → pixelDir (arccos (x 2)) φ = x := by
    intro φ h1 h2
    funext i
    fin_cases i
    · simp [pixelDir, hs, h1, Complex.norm_mul_cos_arg, hz]
    · simp [pixelDir, hs, h2, Complex.norm_mul_sin_arg, hz]
    · simp [pixelDir, hc]
  have hp := pi_pos
  rcases le_or_gt 0 z.arg with h | h
  · exact ⟨_, z.arg, arccos_nonneg _, arccos_le_pi _, h, by linarith [Complex.arg_le_pi z], key _ rfl rfl⟩
  · exact ⟨_, z.arg + 2 * π, arccos_nonneg _, arccos_le_pi _, by linarith [Complex.neg_pi_lt_arg z], by linarith,
      key _ (cos_add_two_pi _) (sin_add_two_pi _)⟩

/-- Every position is a limit of pixels. -/
theorem pixels_dense (θ φ : ℝ) (h0 : 0 ≤ θ) (h1 : θ ≤ π) (h2 : 0 ≤ φ) (h3 : φ < 2 * π) :
    ∃ t p : ℕ → ℕ, (∀ L, t L < L + 1 ∧ p L < 2 * (L + 1) - 1) ∧
      Tendsto (fun L => ((2 * t L + 1) * π / (2 * ((L + 1 : ℕ) : ℝ) - 1) : ℝ)) atTop (𝓝 θ) ∧
      Tendsto (fun L => (2 * π * p L / (2 * ((L + 1 : ℕ) : ℝ) - 1) : ℝ)) atTop (𝓝 φ) := by
  have hp := pi_pos
  have hw : ∀ L : ℕ, (2 * ((L + 1 : ℕ) : ℝ) - 1) = 2 * L + 1 := fun L => by push_cast; ring
  have hpos : ∀ L : ℕ, (0 : ℝ) < 2 * L + 1 := fun L => by positivity
  have lim : Tendsto (fun L : ℕ => 2 * π / (2 * (L : ℝ) + 1)) atTop (𝓝 0) := by
    apply Tendsto.div_atTop tendsto_const_nhds
    exact tendsto_atTop_add_const_right _ _ (tendsto_natCast_atTop_atTop.const_mul_atTop (by norm_num))
  have close : ∀ (u : ℕ → ℝ) (a : ℝ), (∀ L, |u L - a| ≤ 2 * π / (2 * (L : ℝ) + 1)) → Tendsto u atTop (𝓝 a) := by
    intro u a h
    rw [tendsto_iff_dist_tendsto_zero]
    exact squeeze_zero (fun _ => dist_nonneg) (fun L => by rw [Real.dist_eq]; exact h L) lim
  refine ⟨fun L => ⌊θ * (2 * L + 1) / (2 * π)⌋₊, fun L => ⌊φ * (2 * L + 1) / (2 * π)⌋₊, fun L => ⟨?_, ?_⟩, close _ _ fun L => ?_,
    close _ _ fun L => ?_⟩
  · rw [Nat.floor_lt (by positivity), div_lt_iff₀ (by positivity)]
    push_cast
    nlinarith [hpos L]
  · rw [show 2 * (L + 1) - 1 = 2 * L + 1 by omega, Nat.floor_lt (by positivity), div_lt_iff₀ (by positivity)]
    push_cast
    nlinarith [hpos L]
  · have a1 := Nat.floor_le (a := θ * (2 * L + 1) / (2 * π)) (by positivity)
    have a2 := Nat.lt_floor_add_one (θ * (2 * L + 1) / (2 * π))
    rw [le_div_iff₀ (by positivity)] at a1
    rw [div_lt_iff₀ (by positivity)] at a2
    rw [hw, div_sub' (hpos L).ne', abs_div, abs_of_pos (hpos L)]
    apply div_le_div_of_nonneg_right _ (hpos L).le
    rw [abs_le]
    constructor <;> nlinarith
  · have a1 := Nat.floor_le (a := φ * (2 * L + 1) / (2 * π)) (by positivity)
    have a2 := Nat.lt_floor_add_one (φ * (2 * L + 1) / (2 * π))
    rw [le_div_iff₀ (by positivity)] at a1
    rw [div_lt_iff₀ (by positivity)] at a2
    rw [hw, div_sub' (hpos L).ne', abs_div, abs_of_pos (hpos L)]
    apply div_le_div_of_nonneg_right _ (hpos L).le
    rw [abs_le]
    constructor <;> nlinarith

theorem pixelDir_unit (θ φ : ℝ) : dot3 (pixelDir θ φ) (pixelDir θ φ) = 1 := by
  have h1 := sin_sq_add_cos_sq θ
  have h2 := sin_sq_add_cos_sq φ
  simp only [dot3, pixelDir, Matrix.cons_val_zero, Matrix.cons_val_one, Matrix.cons_val]
  linear_combination (sin θ) ^ 2 * h2 + h1

theorem abs_dot3_le {a b : Fin 3 → ℝ} (ha : dot3 a a = 1) (hb : dot3 b b = 1) : |dot3 a b| ≤ 1 := by
  rw [← sq_le_one_iff_abs_le_one]
  unfold dot3 at *
  have : (a 0 * b 0 + a 1 * b 1 + a 2 * b 2) ^ 2 ≤ (a 0 * a 0 + a 1 * a 1 + a 2 * a 2) * (b 0 * b 0 + b 1 * b 1 + b 2 * b 2) := by
    nlinarith [sq_nonneg (a 0 * b 1 - a 1 * b 0), sq_nonneg (a 0 * b 2 - a 2 * b 0), sq_nonneg (a 1 * b 2 - a 2 * b 1)]
  rw [ha, hb] at this
  linarith

/-- If two pairs of planes have the same neighbourhoods at `x`, then `x` is equally far from both pairs. -/
theorem near_eq {a b c d x : Fin 3 → ℝ} (ha : dot3 a a = 1) (hb : dot3 b b = 1) (hc : dot3 c c = 1) (hd : dot3 d d = 1)
    (hx : dot3 x x = 1)
    (h : ∀ w : ℝ, 0 < w → (NearPlane a w x ∨ NearPlane b w x ↔ NearPlane c w x ∨ NearPlane d w x)) :
    min |dot3 a x| |dot3 b x| = min |dot3 c x| |dot3 d x| := by
  have hp := pi_pos
  have gen : ∀ {a b c d : Fin 3 → ℝ}, dot3 a a = 1 → dot3 b b = 1 → dot3 c c = 1 → dot3 d d = 1 →
      (∀ w : ℝ, 0 < w → NearPlane c w x ∨ NearPlane d w x → NearPlane a w x ∨ NearPlane b w x) →
      min |dot3 a x| |dot3 b x| ≤ min |dot3 c x| |dot3 d x| := by
    intro a b c d ha hb hc hd h
    by_contra hlt
    rw [not_le] at hlt
    have hcd0 : 0 ≤ min |dot3 c x| |dot3 d x| := le_min (abs_nonneg _) (abs_nonneg _)
    have hab1 : min |dot3 a x| |dot3 b x| ≤ 1 := (min_le_left _ _).trans (abs_dot3_le ha hx)
    have hs : arcsin (min |dot3 c x| |dot3 d x|) < arcsin (min |dot3 a x| |dot3 b x|) :=
      strictMonoOn_arcsin ⟨by linarith, by linarith⟩ ⟨by linarith, hab1⟩ hlt
    have hw : 0 < arcsin (min |dot3 a x| |dot3 b x|) * 180 / π := by
      have : 0 ≤ arcsin (min |dot3 c x| |dot3 d x|) := arcsin_nonneg.mpr hcd0
      apply div_pos _ hp
      linarith
    have hn : NearPlane c (arcsin (min |dot3 a x| |dot3 b x|) * 180 / π) x ∨
        NearPlane d (arcsin (min |dot3 a x| |dot3 b x|) * 180 / π) x := by
      unfold NearPlane
      rcases min_choice |dot3 c x| |dot3 d x| with e | e
      · left; rw [e] at hs; exact div_lt_div_of_pos_right (by linarith) hp
      · right; rw [e] at hs; exact div_lt_div_of_pos_right (by linarith) hp
    have mono : ∀ y : ℝ, min |dot3 a x| |dot3 b x| ≤ y →
        ¬ arcsin y * 180 / π < arcsin (min |dot3 a x| |dot3 b x|) * 180 / π := by
      intro y hy
      rw [not_lt]
      exact div_le_div_of_nonneg_right (by linarith [monotone_arcsin hy]) hp.le
    rcases h _ hw hn with k | k
    · exact mono _ (min_le_left _ _) k
    · exact mono _ (min_le_right _ _) k
  exact le_antisymm (gen ha hb hc hd fun w hw => (h w hw).mpr) (gen hc hd ha hb fun w hw => (h w hw).mp)

theorem continuous_dot3_dir (a : Fin 3 → ℝ) : Continuous fun q : ℝ × ℝ => dot3 a (pixelDir q.1 q.2) := by
  simp only [dot3, pixelDir, Matrix.cons_val_zero, Matrix.cons_val_one, Matrix.cons_val]
  fun_prop

/-- A plane inside the union of two planes is one of them. -/
theorem plane_eq {v a b : Fin 3 → ℝ} (hv : dot3 v v = 1) (ha : dot3 a a = 1) (hb : dot3 b b = 1)
    (h : ∀ x, dot3 x x = 1 → dot3 v x = 0 → dot3 a x = 0 ∨ dot3 b x = 0) :
    (∀ x, |dot3 v x| = |dot3 a x|) ∨ (∀ x, |dot3 v x| = |dot3 b x|) := by
  have hall : ∀ x, dot3 v x = 0 → dot3 a x = 0 ∨ dot3 b x = 0 := by
    intro x hx
    have hq : 0 ≤ dot3 x x := by unfold dot3; nlinarith [mul_self_nonneg (x 0), mul_self_nonneg (x 1), mul_self_nonneg (x 2)]
    rcases hq.eq_or_lt with hq | hq
    · left
      have h0 : x 0 = 0 := by unfold dot3 at hq; nlinarith [sq_nonneg (x 0), sq_nonneg (x 1), sq_nonneg (x 2)]
      have h1 : x 1 = 0 := by unfold dot3 at hq; nlinarith [sq_nonneg (x 0), sq_nonneg (x 1), sq_nonneg (x 2)]
      have h2 : x 2 = 0 := by unfold dot3 at hq; nlinarith [sq_nonneg (x 0), sq_nonneg (x 1), sq_nonneg (x 2)]
      simp [dot3, h0, h1, h2]
    · have hr : 0 < √(dot3 x x) := sqrt_pos.mpr hq
      have hrr : √(dot3 x x) * √(dot3 x x) = dot3 x x := mul_self_sqrt hq.le
      have sc : ∀ y, dot3 y (fun i => x i / √(dot3 x x)) = dot3 y x / √(dot3 x x) := by
        intro y; simp only [dot3]; ring
      have hu : dot3 (fun i => x i / √(dot3 x x)) (fun i => x i / √(dot3 x x)) = 1 := by
        have : dot3 (fun i => x i / √(dot3 x x)) (fun i => x i / √(dot3 x x)) = dot3 x x / (√(dot3 x x) * √(dot3 x x)) := by
          simp only [dot3]; field_simp
        rw [this, hrr, div_self hq.ne']
      have := h _ hu (by rw [sc, hx, zero_div])
      simpa [sc, hr.ne'] using this
  have hsub : (∀ x, dot3 v x = 0 → dot3 a x = 0) ∨ (∀ x, dot3 v x = 0 → dot3 b x = 0) := by
    by_contra hc
    push Not at hc
    obtain ⟨⟨y, hy1, hy2⟩, z, hz1, hz2⟩ := hc
    have ad : ∀ c, dot3 c (fun i => y i + z i) = dot3 c y + dot3 c z := by intro c; simp only [dot3]; ring
    have b0 := (hall y hy1).resolve_left hy2
    have a0 := (hall z hz1).resolve_right hz2
    rcases hall (fun i => y i + z i) (by rw [ad, hy1, hz1, add_zero]) with k | k
    · rw [ad, a0, add_zero] at k; exact hy2 k
    · rw [ad, b0, zero_add] at k; exact hz2 k
  have fin : ∀ {c : Fin 3 → ℝ}, dot3 c c = 1 → (∀ x, dot3 v x = 0 → dot3 c x = 0) → ∀ x, |dot3 v x| = |dot3 c x| := by
    intro c hc hs x
    have e1 : ∀ y z : Fin 3 → ℝ, dot3 y (fun i => z i - dot3 v z * v i) = dot3 y z - dot3 v z * dot3 y v := by
      intro y z; simp only [dot3]; ring
    have k1 := hs (fun i => c i - dot3 v c * v i) (by rw [e1, hv]; ring)
    have k2 := hs (fun i => x i - dot3 v x * v i) (by rw [e1, hv]; ring)
    have comm : dot3 c v = dot3 v c := by simp only [dot3]; ring
    rw [e1, hc, comm] at k1
    rw [e1, comm] at k2
    have k3 : dot3 c x = dot3 v x * dot3 v c := by linarith
    have k4 : |dot3 v c| = 1 := by
      have : dot3 v c ^ 2 = 1 := by linarith
      rcases mul_self_eq_one_iff.mp ((sq (dot3 v c)).symm.trans this) with k | k <;> simp [k]
    rw [k3, abs_mul, k4, mul_one]
  rcases hsub with h1 | h1
  · exact .inl (fin ha h1)
  · exact .inr (fin hb h1)

/-- C150 refuted (frame): "Builds a mask for the galactic plane and ecliptic" (utils.py:322).  Let `ecl` and `gal` be the
poles of the ecliptic and of the galactic plane in the coordinates of the map, whatever these are.  The angle between the
two poles is not the one between the pole of the coordinates and the galactic pole in equatorial coordinates.  So for some
`L` and some width, some pixel is masked although it is further from both planes, or is not masked although it is closer to
one of them. -/
theorem C150_frame_refuted (ngp ecl gal : Fin 3 → ℝ) (hn : dot3 ngp ngp = 1) (he : dot3 ecl ecl = 1) (hg : dot3 gal gal = 1)
    (hang : |dot3 ecl gal| ≠ |ngp 2|) :
    ∃ (L : ℕ) (size : ℝ) (t p : ℕ), 0 < size ∧ t < L ∧ p < 2 * L - 1 ∧
      ¬ (MaskedAt (buildMask (galacticLat ngp) L size) t p ↔
          NearPlane ecl size (mwDir L t p) ∨ NearPlane gal size (mwDir L t p)) := by
  by_contra hcon
  push Not at hcon
  have hz : dot3 ![0, 0, 1] ![0, 0, 1] = 1 := by simp [dot3]
  have hpix : ∀ L t p : ℕ, t < L → p < 2 * L - 1 →
      min |dot3 ![0, 0, 1] (mwDir L t p)| |dot3 ngp (mwDir L t p)| = min |dot3 ecl (mwDir L t p)| |dot3 gal (mwDir L t p)| := by
    intro L t p ht hp
    have hu : dot3 (mwDir L t p) (mwDir L t p) = 1 := pixelDir_unit _ _
    apply near_eq hz hn he hg hu
    intro w hw
    rw [← C150_masked_partial ngp L w t p ht hp]
    exact hcon L w t p hw ht hp
  have hsph : ∀ x, dot3 x x = 1 → min |dot3 ![0, 0, 1] x| |dot3 ngp x| = min |dot3 ecl x| |dot3 gal x| := by
    intro x hx
    obtain ⟨θ, φ, h0, h1, h2, h3, rfl⟩ := exists_angles x hx
    obtain ⟨t, p, hr, ht, hp⟩ := pixels_dense θ φ h0 h1 h2 h3
    have hlim := ht.prodMk_nhds hp
    have c : ∀ a b : Fin 3 → ℝ, Continuous fun q : ℝ × ℝ => min |dot3 a (pixelDir q.1 q.2)| |dot3 b (pixelDir q.1 q.2)| :=
      fun a b => (continuous_dot3_dir a).abs.min (continuous_dot3_dir b).abs
    have l1 := ((c ![0, 0, 1] ngp).tendsto (θ, φ)).comp hlim
    have l2 := ((c ecl gal).tendsto (θ, φ)).comp hlim
    refine tendsto_nhds_unique l1 (l2.congr fun L => ?_)
    exact (hpix (L + 1) (t L) (p L) (hr L).1 (hr L).2).symm
  have z1 : ∀ a b : ℝ, min |a| |b| = 0 ↔ a = 0 ∨ b = 0 := by
    intro a b
    constructor
    · intro h
      rcases min_choice |a| |b| with e | e
      · left; rw [e] at h; exact abs_eq_zero.mp h
      · right; rw [e] at h; exact abs_eq_zero.mp h
    · rintro (rfl | rfl) <;> simp
  have hzero : ∀ x, dot3 x x = 1 → ((dot3 ![0, 0, 1] x = 0 ∨ dot3 ngp x = 0) ↔ (dot3 ecl x = 0 ∨ dot3 gal x = 0)) := by
    intro x hx
    rw [← z1, ← z1, hsph x hx]
  have comm : ∀ a b, dot3 a b = dot3 b a := by intro a b; simp only [dot3]; ring
  have n2 : |ngp 2| = |dot3 ![0, 0, 1] ngp| := by simp [dot3]
  rw [n2] at hang
  apply hang
  have q1 := plane_eq hz he hg fun x hx h => (hzero x hx).mp (.inl h)
  have q2 := plane_eq hn he hg fun x hx h => (hzero x hx).mp (.inr h)
  have q3 := plane_eq he hz hn fun x hx h => (hzero x hx).mpr (.inl h)
  have q4 := plane_eq hg hz hn fun x hx h => (hzero x hx).mpr (.inr h)
  rcases q1 with q1 | q1 <;> rcases q2 with q2 | q2
  · rw [q1 ngp, comm ecl ngp, q2 ecl, he, comm ecl gal]
    rcases q4 with q4 | q4
    · rw [q4 ecl, q1 ecl, he]
    · rw [q4 ecl, q2 ecl, he]
  · rw [q1 ngp, comm ecl ngp, q2 ecl, comm]
  · rw [q1 ngp, comm gal ngp, q2 gal]
  · rw [q1 ngp, comm gal ngp, q2 gal, hg]
    rcases q3 with q3 | q3
    · rw [q3 gal, q1 gal, hg]
    · rw [q3 gal, q2 gal, hg]

/-- The hypotheses are met: a unit vector close to astropy's pole. -/
example : IsNgp ![-0.87, -0.19, √(1 - 0.87 ^ 2 - 0.19 ^ 2)] := by
  have h : √(1 - 0.87 ^ 2 - 0.19 ^ 2) * √(1 - 0.87 ^ 2 - 0.19 ^ 2) = 1 - 0.87 ^ 2 - 0.19 ^ 2 :=
    mul_self_sqrt (by norm_num)
  refine ⟨?_, by norm_num, by norm_num, by norm_num, by norm_num, ?_, ?_⟩
  · simp only [dot3, Matrix.cons_val_zero, Matrix.cons_val_one, Matrix.cons_val]
    rw [h]; norm_num
  · simp only [Matrix.cons_val]
    apply le_sqrt_of_sq_le; norm_num
  · simp only [Matrix.cons_val]
    rw [sqrt_le_left (by norm_num)]; norm_num

/-- C150 (frame) is not vacuous: a map in ecliptic coordinates; the poles of the ecliptic and of the Galaxy are 60.2 degrees
apart. -/
example (ngp : Fin 3 → ℝ) (hn : IsNgp ngp) :
    dot3 ngp ngp = 1 ∧ dot3 ![0, 0, 1] ![0, 0, 1] = 1 ∧ dot3 ![√(1 - 0.497 ^ 2), 0, 0.497] ![√(1 - 0.497 ^ 2), 0, 0.497] = 1 ∧
      |dot3 ![0, 0, 1] ![√(1 - 0.497 ^ 2), 0, 0.497]| ≠ |ngp 2| := by
  have h : √(1 - 0.497 ^ 2) * √(1 - 0.497 ^ 2) = 1 - 0.497 ^ 2 := mul_self_sqrt (by norm_num)
  obtain ⟨h0, -, -, -, -, h5, h6⟩ := hn
  refine ⟨h0, by simp [dot3], ?_, ?_⟩
  · simp only [dot3, Matrix.cons_val_zero, Matrix.cons_val_one, Matrix.cons_val]
    rw [h]; norm_num
  · simp only [dot3, Matrix.cons_val_zero, Matrix.cons_val_one, Matrix.cons_val]
    rw [abs_of_pos (by norm_num), abs_of_pos (by linarith)]
    intro h; linarith

end Pxmcmc
