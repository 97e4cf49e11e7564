import Verif.Spec.Attraction
import Verif.Props.Spectrum
import Verif.Props.GlobalSolutions
import Verif.Props.DampedWaves

/-!
# C166: relaxation bounds the flow
-/

namespace Barotropic
open Real (cos sin exp)
open Set

variable {N : ℕ → ℕ → ℝ} {g : Grid ℝ} {S : g.Sph} {M : BModel g}

/-- C166: the term in the code is the relaxation, and solutions exist (C120). -/
theorem C166_forcing (h : Spharm.Dealiased N S) {rate : ℝ} {ref : g.Fld} (hM : M.RelaxesTowards S rate ref) :
    M.ForcedBy (relaxationTo S rate ref) ∧ ∀ t0 t1, LipschitzForcing (relaxationTo S rate ref) t0 t1 ∧ LinearGrowth (relaxationTo S rate ref) t0 t1 := by
  obtain ⟨v, hv, hM⟩ := hM
  have e : ∀ s : St PyTime g, (Term.linearRelaxation S rate v).toRhs s = .ok (relaxationTo S rate ref s.time.sec s.q) := by
    intro s
    have : ref = fun j i => v.at j i := by funext j i; exact (hv j i).symm
    rw [this]
    cases v <;> rfl
  refine ⟨.inr ⟨_, hM, e⟩, fun t0 t1 => ?_⟩
  obtain ⟨R, hR, hL⟩ := (C114_forcing h.exact.linear t0 t1).1 rate v
  suffices relaxationTo S rate ref = R by rw [this]; exact hL
  funext t q
  have := (e ⟨.num t, q⟩).symm.trans (hR ⟨.num t, q⟩)
  injection this

theorem analysis_synthesis (h : Spharm.Dealiased N S) (q : g.Spc) : S.grdtospec (S.spectogrd q) = realZonal q := by
  have e : S.spectogrd q = S.spectogrd (realZonal q) := by
    rw [h.exact.synthesis, h.exact.synthesis]
    congr 1
    funext x y
    exact (harmonicSum_realZonal N q x y).symm
  rw [e, h.exact.analysis _ (realZonal_real q) (.of_le le_rfl _)]

theorem modeDot_realZonal {T : ℕ} (p q : SpecField T) (k) : modeDot (specM k) (p k) (realZonal q k) = modeDot (specM k) (p k) (q k) := by
  unfold modeDot realZonal
  split_ifs <;> simp

theorem modeDot_add (m : ℕ) (a b c : ℂ) : modeDot m a (b + c) = modeDot m a b + modeDot m a c := by
  unfold modeDot
  simp only [Complex.add_re, Complex.add_im]
  split_ifs <;> ring

theorem excess_eq (h : Spharm.Dealiased N S) (h1 : 1 ≤ g.ntrunc) (q : g.Spc) (W : ℝ) :
    excessEnstrophy g.rsphere W (harmonicSum N q) = spherePair g.rsphere (harmonicSum N (degMul (fun _ => 1) (q - solidRotation N W)))
      (harmonicSum N (degMul (fun _ => 1) (q - solidRotation N W))) / 2 := by
  rw [← totalEnstrophy_eq]
  unfold excessEnstrophy
  congr 1
  funext x y
  have e1 : degMul (fun _ => 1) (q - solidRotation N W) = q + (-1 : ℝ) • (solidRotation N W : g.Spc) := by
    funext k
    simp [degMul, sub_eq_add_neg]
  rw [e1, harmonicSum_lin, harmonicSum_solid h.exact.norm_ne h1]
  ring

theorem excess_sum (hg : g.Valid) (h : Spharm.Dealiased N S) (h1 : 1 ≤ g.ntrunc) (q : g.Spc) (W : ℝ) :
    2 * excessEnstrophy g.rsphere W (harmonicSum N q) =
      ∑ k, modeNorm g.rsphere N k * modeDot (specM k) ((q - (solidRotation N W : g.Spc)) k) ((q - (solidRotation N W : g.Spc)) k) := by
  rw [excess_eq h h1, parseval hg.rsphere_pos.ne', mul_div_cancel₀ _ two_ne_zero]
  simp [degMul]

/-- Forcing and diffusion of a mode -/
theorem relaxation_mode (h : Spharm.Dealiased N S) (h1 : 1 ≤ g.ntrunc) {W : ℝ} (hD : M.DiffusesTowards W) (rate : ℝ) (ref : g.Fld) (t : ℝ) (q : g.Spc) (k) :
    modeDot (specM k) ((q - (solidRotation N W : g.Spc)) k) (M.source S (relaxationTo S rate ref) t q k) =
      rate * modeDot (specM k) ((q - (solidRotation N W : g.Spc)) k) ((S.grdtospec ref - (solidRotation N W : g.Spc)) k) -
      (rate + M.diffusionCoeff * ((specN k : ℝ) * (specN k + 1) / g.rsphere ^ 2) ^ M.diffusionOrder) *
        modeDot (specM k) ((q - (solidRotation N W : g.Spc)) k) ((q - (solidRotation N W : g.Spc)) k) := by
  have hback : ∀ k (z : ℂ), (M.diffusionCoeff : ℂ) * (z - M.background S k) = M.diffusionCoeff * (z - (solidRotation N W : g.Spc) k) := by
    intro k z
    rcases hD.2 with h0 | hb | ⟨hb, rfl⟩
    · rw [h0]; simp
    · unfold BModel.background
      rw [hb]
      dsimp only
      rw [rotation_analysis h.exact h1 h1]
    · unfold BModel.background
      rw [hb]
      simp [solidRotation]
  have e1 : relaxationTo S rate ref t q = rate • (ref + (-1 : ℝ) • S.spectogrd q) := by
    funext j i
    simp [relaxationTo, sub_eq_add_neg]
  have e2 : M.damping S q k = ((-(M.diffusionCoeff * ((specN k : ℝ) * (specN k + 1) / g.rsphere ^ 2) ^ M.diffusionOrder) : ℝ) : ℂ) * (q - (solidRotation N W : g.Spc)) k := by
    unfold BModel.damping
    rw [mul_right_comm, hback, Pi.sub_apply]
    push_cast
    ring
  unfold BModel.source
  rw [Pi.add_apply, e2, e1, h.exact.analysis_smul, h.exact.analysis_add, h.exact.analysis_smul, analysis_synthesis h, modeDot_add, modeDot_smul]
  have e3 : (rate • (S.grdtospec ref + (-1 : ℝ) • realZonal q)) k = (rate : ℂ) * (S.grdtospec ref k + ((-1 : ℝ) : ℂ) * realZonal q k) := by
    simp [mul_add]
  have e4 : modeDot (specM k) ((q - (solidRotation N W : g.Spc)) k) (S.grdtospec ref k) =
      modeDot (specM k) ((q - (solidRotation N W : g.Spc)) k) ((S.grdtospec ref - (solidRotation N W : g.Spc)) k) +
      modeDot (specM k) ((q - (solidRotation N W : g.Spc)) k) ((solidRotation N W : g.Spc) k) := by
    rw [← modeDot_add]; simp
  have e5 : modeDot (specM k) ((q - (solidRotation N W : g.Spc)) k) (q k) =
      modeDot (specM k) ((q - (solidRotation N W : g.Spc)) k) ((q - (solidRotation N W : g.Spc)) k) +
      modeDot (specM k) ((q - (solidRotation N W : g.Spc)) k) ((solidRotation N W : g.Spc) k) := by
    rw [← modeDot_add]; simp
  rw [e3, modeDot_smul, modeDot_add, modeDot_smul, modeDot_realZonal, e4, e5]
  ring

theorem modeDot_young (m : ℕ) (a b : ℂ) : 2 * modeDot m a b ≤ modeDot m a a + modeDot m b b := by
  unfold modeDot
  split_ifs <;> nlinarith [sq_nonneg (a.re - b.re), sq_nonneg (a.im - b.im)]

theorem excess_deriv (hg : g.Valid) (h : Spharm.Dealiased N S) (h1 : 1 ≤ g.ntrunc) (hT : 2 * g.ntrunc + 1 ≤ g.nlat) {W : ℝ} (hD : M.DiffusesTowards W)
    {rate : ℝ} {ref : g.Fld} {t0 t1 : ℝ} {Y : ℝ → g.Spc} (hY : M.Solution S (relaxationTo S rate ref) t0 t1 Y) {t : ℝ} (ht : t ∈ Icc t0 t1) :
    ∃ D, HasDerivWithinAt (fun t => excessEnstrophy g.rsphere W (harmonicSum N (Y t))) D (Icc t0 t1) t ∧
      (0 ≤ rate → D ≤ rate * (excessEnstrophy g.rsphere W (harmonicSum N (S.grdtospec ref)) - excessEnstrophy g.rsphere W (harmonicSum N (Y t)))) ∧
      (ref = rotationField g W → D ≤ -(2 * rate * excessEnstrophy g.rsphere W (harmonicSum N (Y t))) ∧
        (M.diffusionCoeff = 0 → D = -(2 * rate * excessEnstrophy g.rsphere W (harmonicSum N (Y t))))) := by
  have hr := hg.rsphere_pos.ne'
  have hN := h.exact.norm_ne
  have hd := shifted_deriv (M := M) hg h h1 hT hY ht (d := fun _ => 1) (fun n hn => rfl) W
  simp only [← excess_eq h h1] at hd
  have hν : ∀ k : Fin (nspec g.ntrunc), 0 ≤ M.diffusionCoeff * ((specN k : ℝ) * (specN k + 1) / g.rsphere ^ 2) ^ M.diffusionOrder := fun k => by
    have := hD.1
    positivity
  refine ⟨_, hd, fun hrate => ?_, fun href => ?_⟩
  · rw [parseval hr]
    have e1 := excess_sum hg h h1 (Y t) W
    have e2 := excess_sum hg h h1 (S.grdtospec ref) W
    have hs : ∀ k, modeNorm g.rsphere N k * modeDot (specM k) (degMul (fun _ => 1) (Y t - (solidRotation N W : g.Spc)) k)
          (degMul (fun _ => 1) (M.source S (relaxationTo S rate ref) t (Y t)) k) ≤
        rate / 2 * (modeNorm g.rsphere N k * modeDot (specM k) ((S.grdtospec ref - (solidRotation N W : g.Spc)) k) ((S.grdtospec ref - (solidRotation N W : g.Spc)) k)) -
        rate / 2 * (modeNorm g.rsphere N k * modeDot (specM k) ((Y t - (solidRotation N W : g.Spc)) k) ((Y t - (solidRotation N W : g.Spc)) k)) := by
      intro k
      simp only [degMul, Complex.ofReal_one, one_mul]
      rw [relaxation_mode h h1 hD]
      have hy := modeDot_young (specM k) ((Y t - (solidRotation N W : g.Spc)) k) ((S.grdtospec ref - (solidRotation N W : g.Spc)) k)
      have hp := (modeNorm_pos hr hN k).le
      have hq := mul_nonneg (hν k) (modeDot_self_nonneg (specM k) ((Y t - (solidRotation N W : g.Spc)) k))
      have hy' := mul_le_mul_of_nonneg_left hy hrate
      have := mul_le_mul_of_nonneg_left (show rate * modeDot (specM k) ((Y t - (solidRotation N W : g.Spc)) k) ((S.grdtospec ref - (solidRotation N W : g.Spc)) k) -
        (rate + M.diffusionCoeff * ((specN k : ℝ) * (specN k + 1) / g.rsphere ^ 2) ^ M.diffusionOrder) *
          modeDot (specM k) ((Y t - (solidRotation N W : g.Spc)) k) ((Y t - (solidRotation N W : g.Spc)) k) ≤
        rate / 2 * modeDot (specM k) ((S.grdtospec ref - (solidRotation N W : g.Spc)) k) ((S.grdtospec ref - (solidRotation N W : g.Spc)) k) -
        rate / 2 * modeDot (specM k) ((Y t - (solidRotation N W : g.Spc)) k) ((Y t - (solidRotation N W : g.Spc)) k) by linarith) hp
      linarith
    have := Finset.sum_le_sum fun k (_ : k ∈ Finset.univ) => hs k
    rw [Finset.sum_sub_distrib, ← Finset.mul_sum, ← Finset.mul_sum, ← e1, ← e2] at this
    linarith
  · have e1 := excess_sum hg h h1 (Y t) W
    have em : ∀ k, modeDot (specM k) (degMul (fun _ => 1) (Y t - (solidRotation N W : g.Spc)) k)
          (degMul (fun _ => 1) (M.source S (relaxationTo S rate ref) t (Y t)) k) =
        -((rate + M.diffusionCoeff * ((specN k : ℝ) * (specN k + 1) / g.rsphere ^ 2) ^ M.diffusionOrder) *
          modeDot (specM k) ((Y t - (solidRotation N W : g.Spc)) k) ((Y t - (solidRotation N W : g.Spc)) k)) := by
      intro k
      simp only [degMul, Complex.ofReal_one, one_mul]
      rw [relaxation_mode h h1 hD, href, rotation_analysis h.exact h1 h1, sub_self, Pi.zero_apply, modeDot_comm _ _ 0, modeDot_zero]
      ring
    rw [parseval hr]
    simp only [em]
    have e3 : -(2 * rate * excessEnstrophy g.rsphere W (harmonicSum N (Y t))) =
        ∑ k, modeNorm g.rsphere N k * -(rate * modeDot (specM k) ((Y t - (solidRotation N W : g.Spc)) k) ((Y t - (solidRotation N W : g.Spc)) k)) := by
      have : ∀ k, modeNorm g.rsphere N k * -(rate * modeDot (specM k) ((Y t - (solidRotation N W : g.Spc)) k) ((Y t - (solidRotation N W : g.Spc)) k)) =
        -rate * (modeNorm g.rsphere N k * modeDot (specM k) ((Y t - (solidRotation N W : g.Spc)) k) ((Y t - (solidRotation N W : g.Spc)) k)) := fun k => by ring
      simp only [this]
      rw [← Finset.mul_sum, ← e1]
      ring
    rw [e3]
    refine ⟨Finset.sum_le_sum fun k _ => mul_le_mul_of_nonneg_left ?_ (modeNorm_pos hr hN k).le, fun h0 => Finset.sum_congr rfl fun k _ => ?_⟩
    · have := mul_nonneg (hν k) (modeDot_self_nonneg (specM k) ((Y t - (solidRotation N W : g.Spc)) k))
      linarith
    · rw [h0]
      ring

theorem exp_shift (c t0 t : ℝ) (s : Set ℝ) : HasDerivWithinAt (fun t => exp (c * (t - t0))) (exp (c * (t - t0)) * c) s t := by
  have := (((hasDerivAt_id t).sub_const t0).const_mul c).exp
  simp only [mul_one, id] at this
  exact this.hasDerivWithinAt

/-- C166: the difference from any solid-body rotation is bounded by its weighted mean of the initial state and of the reference; the weight of the
initial state decreases exponentially. -/
theorem C166_bound (hg : g.Valid) (h : Spharm.Dealiased N S) (h1 : 1 ≤ g.ntrunc) (hT : 2 * g.ntrunc + 1 ≤ g.nlat) {W : ℝ} (hD : M.DiffusesTowards W)
    {rate : ℝ} (hrate : 0 ≤ rate) {ref : g.Fld} {t0 t1 : ℝ} {Y : ℝ → g.Spc} (hY : M.Solution S (relaxationTo S rate ref) t0 t1 Y) {t : ℝ} (ht : t ∈ Icc t0 t1) :
    excessEnstrophy g.rsphere W (harmonicSum N (Y t)) ≤ exp (-rate * (t - t0)) * excessEnstrophy g.rsphere W (harmonicSum N (Y t0)) +
      (1 - exp (-rate * (t - t0))) * excessEnstrophy g.rsphere W (harmonicSum N (S.grdtospec ref)) := by
  obtain ⟨Z, hZ⟩ : ∃ Z, Z = excessEnstrophy g.rsphere W (harmonicSum N (S.grdtospec ref)) := ⟨_, rfl⟩
  choose D hd hb _hb' using fun t : Icc t0 t1 => excess_deriv hg h h1 hT hD hY t.2
  have hanti := antitone_of_deriv (t0 := t0) (t1 := t1) (f := fun t => exp (rate * (t - t0)) * (excessEnstrophy g.rsphere W (harmonicSum N (Y t)) - Z))
    (f' := fun t => if ht : t ∈ Icc t0 t1 then exp (rate * (t - t0)) * rate * (excessEnstrophy g.rsphere W (harmonicSum N (Y t)) - Z) + exp (rate * (t - t0)) * D ⟨t, ht⟩ else 0)
    (fun t ht => by
      rw [dif_pos ht]
      exact (exp_shift rate t0 t _).mul ((hd ⟨t, ht⟩).sub_const Z)) (fun t ht => by
      rw [dif_pos ht]
      have := mul_le_mul_of_nonneg_left (hb ⟨t, ht⟩ hrate) (Real.exp_pos (rate * (t - t0))).le
      rw [← hZ] at this
      linarith)
  have := hanti ⟨le_rfl, ht.1.trans ht.2⟩ ht ht.1
  dsimp only at this
  rw [sub_self, mul_zero, Real.exp_zero, one_mul] at this
  have h2 := mul_le_mul_of_nonneg_left this (Real.exp_pos (-rate * (t - t0))).le
  rw [← mul_assoc, ← Real.exp_add, show -rate * (t - t0) + rate * (t - t0) = 0 by ring, Real.exp_zero, one_mul] at h2
  rw [← hZ]
  linarith

/-- C166: a solid-body rotation as reference attracts every state, at exactly the rate of the relaxation without diffusion. -/
theorem C166_decay (hg : g.Valid) (h : Spharm.Dealiased N S) (h1 : 1 ≤ g.ntrunc) (hT : 2 * g.ntrunc + 1 ≤ g.nlat) {W : ℝ} (hD : M.DiffusesTowards W)
    {rate : ℝ} {t0 t1 : ℝ} {Y : ℝ → g.Spc} (hY : M.Solution S (relaxationTo S rate (rotationField g W)) t0 t1 Y) {t : ℝ} (ht : t ∈ Icc t0 t1) :
    excessEnstrophy g.rsphere W (harmonicSum N (Y t)) ≤ exp (-(2 * rate) * (t - t0)) * excessEnstrophy g.rsphere W (harmonicSum N (Y t0)) ∧
    (M.diffusionCoeff = 0 →
      excessEnstrophy g.rsphere W (harmonicSum N (Y t)) = exp (-(2 * rate) * (t - t0)) * excessEnstrophy g.rsphere W (harmonicSum N (Y t0))) := by
  choose D hd _hb' hb using fun t : Icc t0 t1 => excess_deriv hg h h1 hT hD hY t.2
  have key : exp (-(2 * rate) * (t - t0)) * (exp (2 * rate * (t - t0)) * excessEnstrophy g.rsphere W (harmonicSum N (Y t))) =
      excessEnstrophy g.rsphere W (harmonicSum N (Y t)) := by
    rw [← mul_assoc, ← Real.exp_add, show -(2 * rate) * (t - t0) + 2 * rate * (t - t0) = 0 by ring, Real.exp_zero, one_mul]
  have hder : ∀ t (ht : t ∈ Icc t0 t1), HasDerivWithinAt (fun t => exp (2 * rate * (t - t0)) * excessEnstrophy g.rsphere W (harmonicSum N (Y t)))
      (exp (2 * rate * (t - t0)) * (2 * rate) * excessEnstrophy g.rsphere W (harmonicSum N (Y t)) + exp (2 * rate * (t - t0)) * D ⟨t, ht⟩) (Icc t0 t1) t :=
    fun t ht => (exp_shift (2 * rate) t0 t _).mul (hd ⟨t, ht⟩)
  constructor
  · have hanti := antitone_of_deriv (t0 := t0) (t1 := t1) (f := fun t => exp (2 * rate * (t - t0)) * excessEnstrophy g.rsphere W (harmonicSum N (Y t)))
      (f' := fun t => if ht : t ∈ Icc t0 t1 then exp (2 * rate * (t - t0)) * (2 * rate) * excessEnstrophy g.rsphere W (harmonicSum N (Y t)) + exp (2 * rate * (t - t0)) * D ⟨t, ht⟩ else 0)
      (fun t ht => by rw [dif_pos ht]; exact hder t ht) (fun t ht => by
        rw [dif_pos ht]
        have := mul_le_mul_of_nonneg_left (hb ⟨t, ht⟩ rfl).1 (Real.exp_pos (2 * rate * (t - t0))).le
        linarith)
    have := hanti ⟨le_rfl, ht.1.trans ht.2⟩ ht ht.1
    dsimp only at this
    rw [sub_self, mul_zero, Real.exp_zero, one_mul] at this
    rw [← key]
    exact mul_le_mul_of_nonneg_left this (Real.exp_pos _).le
  · intro h0
    have := const_of_deriv (t0 := t0) (t1 := t1) (f := fun t => exp (2 * rate * (t - t0)) * excessEnstrophy g.rsphere W (harmonicSum N (Y t)))
      (fun t ht => (hder t ht).congr_deriv (by rw [(hb ⟨t, ht⟩ rfl).2 h0]; ring)) t ht
    rw [sub_self, mul_zero, Real.exp_zero, one_mul] at this
    rw [← key, this]

/-- C166: the difference from a state of rest bounds kinetic energy. -/
theorem C166_energy {τ : Type} (hg : g.Valid) (h : Spharm.Dealiased N S) (h1 : 1 ≤ g.ntrunc) (s : St τ g) :
    totalEnergy g.rsphere (s.streamFn N S) ≤ g.rsphere ^ 2 / 2 * excessEnstrophy g.rsphere g.omega (s.pvFn N) := by
  have hr := hg.rsphere_pos.ne'
  have hN := h.exact.norm_ne
  obtain ⟨p1, p2, e1, e2⟩ := C158_spectrum (N := N) (S := S) hr hN s
  have hr2 : 0 < g.rsphere ^ 2 := by positivity
  have hle : 2 / g.rsphere ^ 2 * totalEnergy g.rsphere (s.streamFn N S) ≤ totalEnstrophy g.rsphere (harmonicSum N (dropMean (s.vorticitySpectral S))) := by
    rw [← e1, ← e2, Finset.mul_sum]
    refine Finset.sum_le_sum fun l _ => ?_
    rcases Nat.eq_zero_or_pos l with rfl | hl
    · rw [p2]; simp
    · refine mul_le_mul_of_nonneg_right (div_le_div_of_nonneg_right ?_ hr2.le) (p1 l)
      have : (1 : ℝ) ≤ l := by exact_mod_cast hl
      nlinarith
  have hdrop : 2 * totalEnstrophy g.rsphere (harmonicSum N (dropMean (s.vorticitySpectral S))) ≤ 2 * excessEnstrophy g.rsphere g.omega (s.pvFn N) := by
    unfold St.pvFn
    rw [excess_sum hg h h1, Grid.dropMean_eq_degMul, totalEnstrophy_eq, parseval hr, mul_div_cancel₀ _ two_ne_zero]
    refine Finset.sum_le_sum fun k _ => mul_le_mul_of_nonneg_left ?_ (modeNorm_pos hr hN k).le
    rw [vorticity_shift h h1]
    unfold degMul
    by_cases hk : specN k = 0
    · simpa [hk, modeDot_zero] using modeDot_self_nonneg (specM k) ((s.q - (solidRotation N g.omega : g.Spc)) k)
    · simp [hk]
  have := mul_le_mul_of_nonneg_left (hle.trans (by linarith : _ ≤ excessEnstrophy g.rsphere g.omega (s.pvFn N))) (show 0 ≤ g.rsphere ^ 2 / 2 by positivity)
  rw [← mul_assoc, show g.rsphere ^ 2 / 2 * (2 / g.rsphere ^ 2) = 1 by field_simp, one_mul] at this
  exact this

/-- C166: the states that `run` returns obey the bounds up to any tolerance if the time step is sufficiently small. -/
theorem C166_runs (hg : g.Valid) (h : Spharm.Dealiased N S) (h1 : 1 ≤ g.ntrunc) (hT : 2 * g.ntrunc + 1 ≤ g.nlat) {W : ℝ} (hD : M.DiffusesTowards W)
    {rate : ℝ} (hrate : 0 ≤ rate) {ref : g.Fld} (hM : M.RelaxesTowards S rate ref) (s : St PyTime g) (t1 : ℝ) {η : ℝ} (hη : 0 < η) : ∃ δ > 0,
      ∀ (dt : PyDelta) (tend : PyTime) (se : ℝ), s.time.Compatible dt → s.time.SameKind tend → 0 < toSeconds dt → toSeconds dt < δ →
      s.time.sec ≤ tend.sec → tend.sec ≤ t1 → (se ≤ 0 ∨ ∃ x, s.time = .num x) →
      ∃ sf saved, M.Returns S s dt tend se sf saved ∧ tend.sec ≤ sf.time.sec ∧ ∀ w ∈ sf :: saved,
        excessEnstrophy g.rsphere W (w.pvFn N) < exp (-rate * (w.time.sec - s.time.sec)) * excessEnstrophy g.rsphere W (s.pvFn N) +
          (1 - exp (-rate * (w.time.sec - s.time.sec))) * excessEnstrophy g.rsphere W (harmonicSum N (S.grdtospec ref)) + η ∧
        (ref = rotationField g W →
          excessEnstrophy g.rsphere W (w.pvFn N) < exp (-(2 * rate) * (w.time.sec - s.time.sec)) * excessEnstrophy g.rsphere W (s.pvFn N) + η) ∧
        (ref = rotationField g W → M.diffusionCoeff = 0 →
          |excessEnstrophy g.rsphere W (w.pvFn N) - exp (-(2 * rate) * (w.time.sec - s.time.sec)) * excessEnstrophy g.rsphere W (s.pvFn N)| < η) := by
  obtain ⟨hF, hL⟩ := C166_forcing h hM
  obtain ⟨Y, hY0, hY, hconv⟩ := C120_converges hg h h1 hT hD.1 hF s (fun t1 => (hL _ t1).1) (fun t1 => (hL _ t1).2)
  have hYc : ContinuousOn Y (Icc s.time.sec (t1 + 1)) := fun t ht => (hY _ t ht).continuousWithinAt
  have hc : Continuous fun q : g.Spc => excessEnstrophy g.rsphere W (harmonicSum N q) := by
    simp only [excess_eq h h1]
    have := (degMul_continuous (fun _ => 1)).comp (continuous_id.sub (continuous_const (y := (solidRotation N W : g.Spc))))
    exact (spherePair_continuous (N := N) hg.rsphere_pos.ne' this this).div_const 2
  obtain ⟨ε, hε, hn⟩ := near_curve hc hYc hη
  obtain ⟨δ, hδ, hrun⟩ := hconv t1 ε hε
  refine ⟨δ, hδ, fun dt tend se hc hk hd hdδ hst hend hse => ?_⟩
  obtain ⟨sf, saved, hret, hle, hall⟩ := hrun dt tend se hc hk hd hdδ hst hend hse
  refine ⟨sf, saved, hret, hle, fun w hw => ?_⟩
  obtain ⟨hwt, hwq, -⟩ := hall w hw
  have hnear := hn _ hwt w.q hwq
  have hup := (abs_lt.mp hnear).2
  have hb := C166_bound hg h h1 hT hD hrate (hY (t1 + 1)) hwt
  rw [hY0] at hb
  unfold St.pvFn
  refine ⟨by linarith, fun href => ?_, fun href h0 => ?_⟩
  · subst href
    have := (C166_decay hg h h1 hT hD (hY (t1 + 1)) hwt).1
    rw [hY0] at this
    linarith
  · subst href
    have := (C166_decay hg h h1 hT hD (hY (t1 + 1)) hwt).2 h0
    rw [hY0] at this
    rw [← this]
    exact hnear

/-- Non-vacuity of C166: on a grid of 7 latitudes with truncation 2, relaxation towards a state of rest leaves less than a millionth of the initial
enstrophy (if that is one) after the time of seven relaxations. -/
example (q : grid30.Spc) : ∃ S : grid30.Sph, Spharm.Dealiased (fun _ _ => 1) S ∧ 1 ≤ grid30.ntrunc ∧ 2 * grid30.ntrunc + 1 ≤ grid30.nlat ∧
    ∃ M : BModel grid30, M.DiffusesTowards 0 ∧ 0 < M.diffusionCoeff ∧ M.RelaxesTowards S 1 (rotationField grid30 0) ∧
      (excessEnstrophy 1 0 (harmonicSum (fun _ _ => 1) q) = 1 → ∃ δ > 0, ∀ h > 0, h < δ → ∃ sf saved, M.Returns S ⟨.num 0, q⟩ (.num h) (.num 7) 0 sf saved ∧
        excessEnstrophy 1 0 (sf.pvFn fun _ _ => 1) < exp (-14) + 1 / 10 ^ 6) := by
  have hn : grid30.nlat = 7 := grid30_nlat
  have ht : grid30.ntrunc = 2 := rfl
  have h1 : 1 ≤ grid30.ntrunc := by rw [ht]; norm_num
  have hT : 2 * grid30.ntrunc + 1 ≤ grid30.nlat := by rw [hn, ht]; norm_num
  obtain ⟨⟨S, h⟩, -⟩ := C119_exists (N := fun _ _ => 1) grid30_valid (by rw [hn, ht]; norm_num) (fun _ _ => one_ne_zero)
  have hM : (⟨some (Term.linearRelaxation S 1 (.num 0)).toRhs, 2, 1, none⟩ : BModel grid30).RelaxesTowards S 1 (rotationField grid30 0) :=
    ⟨.num 0, fun j i => by simp [rotationField, RVal.at], rfl⟩
  have hD : (⟨some (Term.linearRelaxation S 1 (.num 0)).toRhs, 2, 1, none⟩ : BModel grid30).DiffusesTowards 0 := ⟨zero_le_one, .inr (.inr ⟨rfl, rfl⟩)⟩
  refine ⟨S, h, h1, hT, _, hD, zero_lt_one, hM, fun hq => ?_⟩
  obtain ⟨δ, hδ, hrun⟩ := C166_runs grid30_valid h h1 hT hD zero_le_one hM ⟨.num 0, q⟩ 7 (η := 1 / 10 ^ 6) (by norm_num)
  refine ⟨δ, hδ, fun e he heδ => ?_⟩
  obtain ⟨sf, saved, hret, hle, hall⟩ := hrun (.num e) (.num 7) 0 trivial trivial he heδ (by simp [PyTime.sec]) (by simp [PyTime.sec]) (.inl le_rfl)
  refine ⟨sf, saved, hret, ((hall sf (by simp)).2.1 rfl).trans_le (add_le_add_left ?_ _)⟩
  change _ * excessEnstrophy 1 0 (harmonicSum (fun _ _ => 1) q) ≤ _
  rw [hq, mul_one]
  refine Real.exp_le_exp.mpr ?_
  have : (7 : ℝ) ≤ sf.time.sec := hle
  change -(2 * 1) * (sf.time.sec - 0) ≤ -14
  linarith

end Barotropic
