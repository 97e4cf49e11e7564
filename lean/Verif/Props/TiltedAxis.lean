import Verif.Props.AxialMomentum
import Verif.Props.DampedWaves
import Verif.Props.TimeOrder
import Verif.Spec.TiltedAxis

/-!
# C163: the tilt of the axis of angular momentum in runs

The coefficient of PV with `m = n = 1` is proportional to the angular momentum about the axes in the equatorial plane.
-/

namespace Barotropic
open Grid BModel Complex

variable {N : ℕ → ℕ → ℝ} {g : Grid ℝ} {S : g.Sph} {M : BModel g}

/-- The forcing relaxes the coefficient `k` towards zero with a rate that may be zero, diffusion acts towards a field without this coefficient. -/
def BModel.RelaxesTilt (S : g.Sph) (M : BModel g) (rate : ℝ) (k : Fin (nspec g.ntrunc)) : Prop :=
  (∀ w F, M.Forced w F → S.grdtospec F k = -(rate * w.q k)) ∧ 0 ≤ M.diffusionCoeff ∧ (M.diffusionCoeff = 0 ∨ M.background S k = 0)

/-- Coefficients that are not zonal are those of the synthesised field. -/
theorem analysis_wave (h : Spharm.Dealiased N S) (q : g.Spc) {k : Fin (nspec g.ntrunc)} (hk : specM k ≠ 0) : S.grdtospec (S.spectogrd q) k = q k := by
  obtain ⟨p, hp⟩ : ∃ p : g.Spc, p = fun l => if specM l = 0 then ((q l).re : ℂ) else q l := ⟨_, rfl⟩
  have e : S.spectogrd q = S.spectogrd p := by
    rw [h.exact.synthesis, h.exact.synthesis]
    congr 1
    funext x y
    rw [hp]
    unfold harmonicSum
    refine Finset.sum_congr rfl fun l _ => ?_
    dsimp only
    split_ifs with hl
    · simp [hl]
    · rfl
  rw [e, h.exact.analysis p (fun l hl => by rw [hp]; simp [hl]) (fun l hl => absurd (specN_le l) (by omega)), hp]
  simp [hk]

theorem relaxesTilt_none (h : Spharm.Dealiased N S) (hM : M.rhs = none) (hν : 0 ≤ M.diffusionCoeff) {k : Fin (nspec g.ntrunc)}
    (hb : M.diffusionCoeff = 0 ∨ M.background S k = 0) : M.RelaxesTilt S 0 k := by
  refine ⟨fun w F hF => ?_, hν, hb⟩
  rcases hF with ⟨-, rfl⟩ | ⟨f, hf, -⟩
  · have := h.exact.analysis_smul 0 0
    rw [zero_smul, zero_smul] at this
    rw [this]; simp
  · rw [hM] at hf; cases hf

theorem relaxesTilt_linear (h : Spharm.Dealiased N S) {rate : ℝ} {ref : RVal g} (hM : M.rhs = some (Term.linearRelaxation S rate ref).toRhs)
    (hν : 0 ≤ M.diffusionCoeff) {k : Fin (nspec g.ntrunc)} (hk : specM k ≠ 0) (hr : S.grdtospec (fun j i => ref.at j i) k = 0)
    (hb : M.diffusionCoeff = 0 ∨ M.background S k = 0) : M.RelaxesTilt S rate k := by
  refine ⟨fun w F hF => ?_, hν, hb⟩
  rcases hF with ⟨hn, -⟩ | ⟨f, hf, hF⟩
  · rw [hM] at hn; cases hn
  · rw [hM] at hf
    obtain rfl := Option.some.inj hf
    have e1 : (Term.linearRelaxation S rate ref).toRhs w = .ok (rate • ((fun j i => ref.at j i : g.Fld) + (-1 : ℝ) • S.spectogrd w.q)) := by
      have : (Term.linearRelaxation S rate ref).toRhs w = .ok fun j i => rate * (ref.at j i - S.spectogrd w.q j i) := by cases ref <;> rfl
      rw [this]
      congr 1
      funext j i
      simp only [Pi.smul_apply, Pi.add_apply, smul_eq_mul]
      ring
    rw [e1] at hF
    obtain rfl := Except.ok.inj hF
    rw [h.exact.analysis_smul, h.exact.analysis_add, h.exact.analysis_smul]
    simp only [Pi.smul_apply, Pi.add_apply, Complex.real_smul]
    rw [hr, analysis_wave h w.q hk]
    push_cast
    ring

/-- Coefficient `μ` of the discretised equation of the tilt -/
noncomputable def tiltRate (g : Grid ℝ) (rate Δ : ℝ) : ℂ := ((rate * Δ : ℝ) : ℂ) + I * ((-(g.omega * Δ) : ℝ) : ℂ)

/-- C163: whatever the flow is, the tilt in integrations follows the discretised equation of a damped oscillation with the frequency of the planet's rotation. -/
theorem C163_scheme (hg : g.Valid) (h : Spharm.Dealiased N S) (h1 : 1 ≤ g.ntrunc) (hT : 2 * g.ntrunc + 1 ≤ g.nlat) {k : Fin (nspec g.ntrunc)} (hn : specN k = 1)
    (hm : specM k = 1) {rate : ℝ} (hM : M.RelaxesTilt S rate k) {s : St PyTime g} {dt : PyDelta} (hd : 0 ≤ toSeconds dt) {m : ℕ} {x y : ℕ → St PyTime g}
    (hx : M.Scheme S s dt m x y) : ∀ j ≤ m,
      (x j).q k = (dampedOscillation (tiltRate g rate (toSeconds dt)) (M.diffusionRate 1 * toSeconds dt) j).1 * s.q k ∧
      (y j).q k = (dampedOscillation (tiltRate g rate (toSeconds dt)) (M.diffusionRate 1 * toSeconds dt) j).2 * s.q k := by
  obtain ⟨hF, hν, hb⟩ := hM
  obtain ⟨ν, hν'⟩ : ∃ ν, ν = M.diffusionRate 1 := ⟨_, rfl⟩
  have hν0 : 0 ≤ ν := by
    rw [hν']
    unfold BModel.diffusionRate
    have := hg.rsphere_pos
    positivity
  have step : ∀ {w : St PyTime g} {τ : ℝ} {old new : g.Spc} {F : g.Fld}, 0 ≤ τ → M.Forced w F →
      M.ImplicitStep S τ old (pvBudget S (w.pv S) (w.u S) (w.v S) F) new → new k = (old k - τ * ((rate - I * g.omega) * w.q k)) / (1 + (ν * τ : ℝ)) := by
    intro w τ old new F hτ hwF hst
    have e := hst k
    have e2 : pvBudget S (w.pv S) (w.u S) (w.v S) F k = -((rate - I * g.omega) * w.q k) := by
      change S.grdtospec F k - w.pvFluxSpectral S k = _
      rw [hF w F hwF, C159_dipole hg h h1 hT w hn, hm]
      push_cast
      ring
    have e3 : (M.diffusionCoeff : ℂ) * ((specN k : ℂ) * (specN k + 1) / (g.rsphere : ℂ) ^ 2) ^ M.diffusionOrder * (new k - M.background S k) = ν * new k := by
      rw [hν']
      unfold BModel.diffusionRate
      rw [hn]
      rcases hb with hb | hb
      · rw [hb]; simp
      · rw [hb]; push_cast; ring
    rw [e2, e3] at e
    have hne : ((1 + (ν * τ : ℝ) : ℂ)) ≠ 0 := by
      rw [← Complex.ofReal_one, ← Complex.ofReal_add, Complex.ofReal_ne_zero]
      positivity
    rw [eq_div_iff hne]
    push_cast
    linear_combination e
  rw [← hν']
  intro j
  induction j with
  | zero =>
    intro _
    obtain ⟨F, hwF, hst⟩ := hx.euler
    refine ⟨by rw [hx.start]; simp [dampedOscillation], ?_⟩
    rw [step hd hwF hst]
    simp only [dampedOscillation, tiltRate]
    push_cast
    ring
  | succ j ih =>
    intro hj
    obtain ⟨ix, iy⟩ := ih (by omega)
    obtain ⟨F, hwF, hst⟩ := hx.leapfrog j (by omega)
    have hy : (y (j + 1)).q k = (dampedOscillation (tiltRate g rate (toSeconds dt)) (ν * toSeconds dt) (j + 1)).2 * s.q k := by
      rw [step (by linarith) hwF hst, ix, iy]
      simp only [dampedOscillation, tiltRate]
      push_cast
      ring
    refine ⟨?_, hy⟩
    rw [hx.filter j (by omega) k, ix, iy, hy]
    simp only [dampedOscillation]
    ring

theorem tilt_returned (hg : g.Valid) (h : Spharm.Dealiased N S) (h1 : 1 ≤ g.ntrunc) (hT : 2 * g.ntrunc + 1 ≤ g.nlat) {k : Fin (nspec g.ntrunc)} (hn : specN k = 1)
    (hm : specM k = 1) {rate : ℝ} (hM : M.RelaxesTilt S rate k) {s : St PyTime g} {dt : PyDelta} {tend : PyTime} {se : ℝ} (hc : s.time.Compatible dt)
    (hk : s.time.SameKind tend) (hd : 0 < toSeconds dt) {sf : St PyTime g} {saved : List (St PyTime g)} (hret : M.Returns S s dt tend se sf saved) :
    ∀ s' ∈ sf :: saved, ∃ j : ℕ, s'.time.sec - s.time.sec = j * toSeconds dt ∧
      s'.q k = (dampedOscillation (tiltRate g rate (toSeconds dt)) (M.diffusionRate 1 * toSeconds dt) j).1 * s.q k := by
  obtain ⟨m, x, y, hx, hsteps⟩ := returned_steps h.exact hM.2.1 hc hk hd hret
  intro s' hs'
  obtain ⟨j, hj, rfl, ht⟩ := hsteps s' hs'
  exact ⟨j, ht, (C163_scheme hg h h1 hT hn hm hM hd.le hx j hj).1⟩

/-- C163: where the stability margin is positive, the tilt decays exponentially in all runs, with constants that do not depend on the flow. -/
theorem C163_decay (hg : g.Valid) (h : Spharm.Dealiased N S) (h1 : 1 ≤ g.ntrunc) (hT : 2 * g.ntrunc + 1 ≤ g.nlat) {k : Fin (nspec g.ntrunc)} (hn : specN k = 1)
    (hm : specM k = 1) {rate : ℝ} (hM : M.RelaxesTilt S rate k) (hrate : 0 ≤ rate) (dt : PyDelta) (hd : 0 < toSeconds dt)
    (hpos : 0 < stabilityMargin (1 / (1 + 2 * (M.diffusionRate 1 * toSeconds dt))) (tiltRate g rate (toSeconds dt))) :
    ∃ C γ : ℝ, 0 ≤ C ∧ 0 < γ ∧ ∀ (s : St PyTime g) (tend : PyTime) (se : ℝ) (sf : St PyTime g) (saved : List (St PyTime g)), s.time.Compatible dt →
      s.time.SameKind tend → M.Returns S s dt tend se sf saved → ∀ s' ∈ sf :: saved, ‖s'.q k‖ ≤ C * Real.exp (-(γ * (s'.time.sec - s.time.sec))) * ‖s.q k‖ := by
  have hδ : 0 ≤ M.diffusionRate 1 * toSeconds dt := by
    unfold BModel.diffusionRate
    have := hg.rsphere_pos
    have := hM.2.1
    positivity
  obtain ⟨C, r, hC, hr0, hr1, hz⟩ := damped_stable hδ (by unfold tiltRate; rw [add_re, ofReal_re]; simp; positivity) hpos
  refine ⟨C, -Real.log r / toSeconds dt, hC, div_pos (neg_pos.mpr (Real.log_neg hr0 hr1)) hd, fun s tend se sf saved hc hk hret s' hs' => ?_⟩
  obtain ⟨j, ht, e⟩ := tilt_returned hg h h1 hT hn hm hM hc hk hd hret s' hs'
  rw [e, ht, norm_mul]
  refine mul_le_mul_of_nonneg_right ((hz j).trans_eq ?_) (norm_nonneg _)
  congr 1
  rw [show -(-Real.log r / toSeconds dt * (j * toSeconds dt)) = j * Real.log r by field_simp, Real.exp_nat_mul, Real.exp_log hr0]

theorem tiltRate_zero (Δ : ℝ) : tiltRate g 0 Δ = I * ((-(g.omega * Δ) : ℝ) : ℂ) := by
  unfold tiltRate
  simp

/-- C163: without forcing and diffusion, the tilt decays to zero exponentially in every run on a rotating planet if `3 (Ω Δt)² < 2`: unlike the angular momentum about the axis of
the planet, that about other axes is not conserved. -/
theorem C163_lost (hg : g.Valid) (h : Spharm.Dealiased N S) (h1 : 1 ≤ g.ntrunc) (hT : 2 * g.ntrunc + 1 ≤ g.nlat) {k : Fin (nspec g.ntrunc)} (hn : specN k = 1)
    (hm : specM k = 1) (hM : M.rhs = none) (hν : M.diffusionCoeff = 0) (h0 : g.omega ≠ 0) (dt : PyDelta) (hd : 0 < toSeconds dt)
    (hlim : 3 * (g.omega * toSeconds dt) ^ 2 < 2) :
    ∃ C γ : ℝ, 0 ≤ C ∧ 0 < γ ∧ ∀ (s : St PyTime g) (tend : PyTime) (se : ℝ) (sf : St PyTime g) (saved : List (St PyTime g)), s.time.Compatible dt →
      s.time.SameKind tend → M.Returns S s dt tend se sf saved → ∀ s' ∈ sf :: saved, ‖s'.q k‖ ≤ C * Real.exp (-(γ * (s'.time.sec - s.time.sec))) * ‖s.q k‖ := by
  refine C163_decay hg h h1 hT hn hm (relaxesTilt_none h hM hν.ge (.inl hν)) le_rfl dt hd ?_
  have e : M.diffusionRate 1 = 0 := by unfold BModel.diffusionRate; rw [hν, zero_mul]
  rw [e, tiltRate_zero]
  norm_num only [zero_mul, mul_zero, add_zero, div_one]
  rw [margin_imag]
  have : 0 < (g.omega * toSeconds dt) ^ 2 := by positivity
  have e2 : (-(g.omega * toSeconds dt)) ^ 2 = (g.omega * toSeconds dt) ^ 2 := by ring
  rw [e2]
  exact mul_pos (by positivity) (by linarith)

/-- C163: without forcing and diffusion, the tilt grows beyond all bounds if `3 (Ω Δt)² > 2`, in runs from every state that has one. -/
theorem C163_unstable (hg : g.Valid) (h : Spharm.Dealiased N S) (h1 : 1 ≤ g.ntrunc) (hT : 2 * g.ntrunc + 1 ≤ g.nlat) {k : Fin (nspec g.ntrunc)} (hn : specN k = 1)
    (hm : specM k = 1) (hM : M.rhs = none) (hν : M.diffusionCoeff = 0) (s : St PyTime g) (dt : PyDelta) (hc : s.time.Compatible dt) (hd : 0 < toSeconds dt)
    (hlim : 2 < 3 * (g.omega * toSeconds dt) ^ 2) (hs : s.q k ≠ 0) (C : ℝ) :
    ∃ (tend : PyTime) (sf : St PyTime g) (saved : List (St PyTime g)), M.Returns S s dt tend 0 sf saved ∧ C < ‖sf.q k‖ := by
  have e : M.diffusionRate 1 = 0 := by unfold BModel.diffusionRate; rw [hν, zero_mul]
  have hω : g.omega * toSeconds dt ≠ 0 := fun e => by rw [e] at hlim; norm_num at hlim
  obtain ⟨μ, hμ⟩ : ∃ μ, μ = tiltRate g 0 (toSeconds dt) := ⟨_, rfl⟩
  have him : μ.im ≠ 0 := by rw [hμ, tiltRate_zero]; simpa using hω
  have hneg : stabilityMargin (1 / (1 + 2 * 0)) μ < 0 := by
    rw [hμ, tiltRate_zero]
    norm_num only [mul_zero, add_zero, div_one]
    rw [margin_imag]
    have : 0 < (g.omega * toSeconds dt) ^ 2 := by positivity
    have e2 : (-(g.omega * toSeconds dt)) ^ 2 = (g.omega * toSeconds dt) ^ 2 := by ring
    rw [e2]
    exact mul_neg_of_pos_of_neg (by positivity) (by linarith)
  have hz := damped_excited (μ := μ) (fun e => him (by rw [e]; simp)) (fun e => him (by rw [e]; norm_num)) (fun e => him (by rw [e]; norm_num))
  have hs0 : 0 < ‖s.q k‖ := norm_pos_iff.mpr hs
  obtain ⟨j, hj⟩ := damped_unstable le_rfl hneg hz (C / ‖s.q k‖)
  have hkind : s.time.SameKind (stepTime s.time dt j) := by
    revert hc
    cases s.time <;> cases dt <;> simp [PyTime.Compatible, PyTime.SameKind, stepTime]
  have hsec := sec_stepTime hc j
  have hle : s.time.sec ≤ (stepTime s.time dt j).sec := by
    rw [hsec]
    have : 0 ≤ j * toSeconds dt := by positivity
    linarith
  obtain ⟨sf, saved, hret⟩ := C42_returns (S := S) (M := M) (fun f hf => by rw [hM] at hf; cases hf) s dt (stepTime s.time dt j) 0 hc hkind hd (.inl le_rfl) hle
  refine ⟨_, sf, saved, hret, ?_⟩
  obtain ⟨m, x, y, ks, hx, e1, -, -, e4, e5⟩ := C100_run h.exact.linear hν.ge s dt _ 0 hc hkind hd sf saved hret
  have hmj : m = j := by
    rw [hsec] at e4 e5
    refine le_antisymm ?_ ?_
    · by_contra hlt
      push Not at hlt
      exact lt_irrefl _ (e5 j hlt)
    · have : (j : ℝ) * toSeconds dt ≤ m * toSeconds dt := by linarith
      exact_mod_cast le_of_mul_le_mul_right this hd
  subst hmj
  rw [e1, (C163_scheme hg h h1 hT hn hm (relaxesTilt_none h hM hν.ge (.inl hν)) hd.le hx m le_rfl).1, e, zero_mul, ← hμ, norm_mul]
  rwa [div_lt_iff₀ hs0] at hj

/-- C163: the loss is that of the filter: after the time `t` the tilt has precessed with the planet's rotation and is smaller by the factor `exp(-Ω² t Δt / 8)`, up to errors of
second order. -/
theorem C163_filter (hg : g.Valid) (h : Spharm.Dealiased N S) (h1 : 1 ≤ g.ntrunc) (hT : 2 * g.ntrunc + 1 ≤ g.nlat) {k : Fin (nspec g.ntrunc)} (hn : specN k = 1)
    (hm : specM k = 1) (hM : M.rhs = none) (hν : M.diffusionCoeff = 0) {s : St PyTime g} {dt : PyDelta} {tend : PyTime} {se : ℝ} (hc : s.time.Compatible dt)
    (hk : s.time.SameKind tend) (hd : 0 < toSeconds dt) {sf : St PyTime g} {saved : List (St PyTime g)} (hret : M.Returns S s dt tend se sf saved) :
    ∀ s' ∈ sf :: saved,
      let t := s'.time.sec - s.time.sec
      ‖s'.q k - (Real.exp (-(g.omega ^ 2 * t * toSeconds dt / 8)) : ℝ) * exp (I * (g.omega * t : ℝ)) * s.q k‖ ≤ secondOrder g.omega (toSeconds dt) t * ‖s.q k‖ := by
  intro s' hs' t
  obtain ⟨j, ht, e⟩ := tilt_returned hg h h1 hT hn hm (relaxesTilt_none h hM hν.ge (.inl hν)) hc hk hd hret s' hs'
  have e0 : M.diffusionRate 1 = 0 := by unfold BModel.diffusionRate; rw [hν, zero_mul]
  rw [e0, zero_mul, tiltRate_zero, damped_oscillation] at e
  rw [show t = j * toSeconds dt from ht]
  have key := damped_error (-g.omega) hd.le j
  rw [e, ← sub_mul, norm_mul]
  refine mul_le_mul_of_nonneg_right ?_ (norm_nonneg _)
  have e1 : (oscillation (-(g.omega * toSeconds dt)) j).1 - (Real.exp (-(g.omega ^ 2 * (j * toSeconds dt) * toSeconds dt / 8)) : ℝ) * exp (I * (g.omega * (j * toSeconds dt) : ℝ)) =
      ((oscillation (-g.omega * toSeconds dt) j).1 * exp (I * (-g.omega * (j * toSeconds dt) : ℝ)) -
        (Real.exp (-((-g.omega) ^ 2 * (j * toSeconds dt) * toSeconds dt / 8)) : ℝ)) * exp (I * (g.omega * (j * toSeconds dt) : ℝ)) := by
    have e2 : exp (I * (-g.omega * (j * toSeconds dt) : ℝ)) * exp (I * (g.omega * (j * toSeconds dt) : ℝ)) = 1 := by
      rw [← Complex.exp_add, ← Complex.exp_zero]
      congr 1
      push_cast
      ring
    rw [neg_sq, neg_mul]
    rw [neg_mul] at e2
    rw [neg_mul]
    linear_combination -(oscillation (-(g.omega * toSeconds dt)) j).1 * e2
  rw [e1, norm_mul, Complex.norm_exp_I_mul_ofReal, mul_one]
  refine key.trans_eq ?_
  unfold secondOrder
  rw [abs_neg]
  ring

theorem dlon_axis (α x y : ℝ) : dlon (fun x y => Real.cos y * Real.cos (x - α)) x y = Real.cos y * -Real.sin (x - α) := by
  unfold dlon
  have h : HasDerivAt (fun x => Real.cos y * Real.cos (x - α)) (Real.cos y * (-Real.sin (x - α) * 1)) x :=
    (((hasDerivAt_id x).sub_const α).cos).const_mul _
  rw [h.deriv, mul_one]

theorem dlat_axis (α x y : ℝ) : dlat (fun x y => Real.cos y * Real.cos (x - α)) x y = -(Real.sin y * Real.cos (x - α)) := by
  unfold dlat
  have h : HasDerivAt (fun y => Real.cos y * Real.cos (x - α)) (-Real.sin y * Real.cos (x - α)) y := (Real.hasDerivAt_cos y).mul_const _
  rw [h.deriv, neg_mul]

private theorem sphereIntegral_mul_left (r c : ℝ) (A : ℝ → ℝ → ℝ) : sphereIntegral r (fun x y => c * A x y) = c * sphereIntegral r A := by
  unfold sphereIntegral
  simp only [mul_assoc, intervalIntegral.integral_const_mul]
  ring

/-- The coefficient of the tilt is the angular momentum about axes in the equatorial plane. -/
theorem C163_momentum (hg : g.Valid) (h : Spharm.Dealiased N S) (h1 : 1 ≤ g.ntrunc) (s : St PyTime g) (α : ℝ) :
    equatorialMomentum g.rsphere α (s.streamFn N S) =
      g.rsphere ^ 2 * modeNorm g.rsphere N (k2 h1) / (2 * N 1 1) * (exp (I * (α : ℝ)) * s.q (k2 h1)).re := by
  have hr := hg.rsphere_pos.ne'
  have hN := h.exact.norm_ne
  obtain ⟨a, ha⟩ : ∃ a : g.Spc, a = Pi.single (k2 h1) ⟨Real.cos α / (2 * N 1 1), -Real.sin α / (2 * N 1 1)⟩ := ⟨_, rfl⟩
  have ha0 : ∀ l, l ≠ k2 h1 → a l = 0 := fun l hl => by rw [ha]; simp [hl]
  have ha2 : a (k2 h1) = ⟨Real.cos α / (2 * N 1 1), -Real.sin α / (2 * N 1 1)⟩ := by rw [ha]; simp
  have eX : (fun x y => Real.cos y * Real.cos (x - α)) = harmonicSum N a := by
    funext x y
    have e := dipole_field (N := N) h1 (a := a) (fun l hl => by
      rw [ha0 l (fun e => by rw [e, specM_k2] at hl; cases hl)]; rfl) x y
    have e1 : degreePart 1 a = a := by
      funext l
      unfold degreePart
      split_ifs with hl
      · rfl
      · rw [ha0 l (fun e => hl (by rw [e, specN_k2]))]
    rw [e1, ha2, ha0 _ (k2_ne_k1 h1).symm] at e
    rw [e, Real.cos_sub]
    have := hN 1 1
    simp only [Complex.zero_re]
    field_simp
    ring
  have e1 : equatorialMomentum g.rsphere α (s.streamFn N S) = -g.rsphere ^ 2 * windPair g.rsphere (s.streamFn N S) (harmonicSum N a) := by
    unfold equatorialMomentum windPair
    rw [← sphereIntegral_mul_left]
    refine sphereIntegral_congr _ fun x y hy => ?_
    rw [← eX]
    have e2 : sphereGrad g.rsphere (fun x y => Real.cos y * Real.cos (x - α)) x y = (-Real.sin (x - α) / g.rsphere, -(Real.sin y * Real.cos (x - α)) / g.rsphere) := by
      unfold sphereGrad
      rw [dlon_axis, dlat_axis]
      have := hy
      refine Prod.ext ?_ rfl
      dsimp only
      field_simp
    rw [e2]
    dsimp only
    field_simp
    ring
  rw [e1, streamFn_eq, windPair_comm, windPair_green hr, spherePair_dropMean hr (fun l hl => ha0 l (fun e => by rw [e, specN_k2] at hl; cases hl)), parseval hr,
    Finset.sum_eq_single (k2 h1) (fun l _ hl => by rw [ha0 l hl, modeDot_zero, mul_zero]) (by simp), vorticity_shift h h1, Pi.sub_apply, ha2, specM_k2]
  have e3 : (solidRotation N g.omega : g.Spc) (k2 h1) = 0 := if_neg fun hh => by simp at hh
  rw [e3, sub_zero, mul_comm I, Complex.exp_mul_I, ← Complex.ofReal_cos, ← Complex.ofReal_sin]
  simp only [modeDot, one_ne_zero, if_false, Complex.mul_re, Complex.add_re, Complex.add_im, Complex.ofReal_re, Complex.ofReal_im, Complex.I_re, Complex.I_im, Complex.mul_im]
  ring

theorem tiltSq_eq (hg : g.Valid) (h : Spharm.Dealiased N S) (h1 : 1 ≤ g.ntrunc) (s : St PyTime g) :
    tiltSq g.rsphere (s.streamFn N S) = (g.rsphere ^ 2 * modeNorm g.rsphere N (k2 h1) / (2 * N 1 1)) ^ 2 * ‖s.q (k2 h1)‖ ^ 2 := by
  unfold tiltSq
  rw [C163_momentum hg h h1, C163_momentum hg h h1, ← Complex.normSq_eq_norm_sq, Complex.normSq_apply]
  have e0 : exp (I * ((0 : ℝ) : ℂ)) = 1 := by simp
  have e1 : exp (I * ((Real.pi / 2 : ℝ) : ℂ)) = I := by
    rw [mul_comm]; push_cast; exact Complex.exp_pi_div_two_mul_I
  rw [e0, e1, one_mul, Complex.I_mul_re]
  ring

/-- C163: angular momentum about axes in the equatorial plane is lost in runs without forcing and diffusion, however the flow is. -/
theorem C163_tilt (hg : g.Valid) (h : Spharm.Dealiased N S) (h1 : 1 ≤ g.ntrunc) (hT : 2 * g.ntrunc + 1 ≤ g.nlat) (hM : M.rhs = none) (hν : M.diffusionCoeff = 0)
    (h0 : g.omega ≠ 0) (dt : PyDelta) (hd : 0 < toSeconds dt) (hlim : 3 * (g.omega * toSeconds dt) ^ 2 < 2) :
    ∃ C γ : ℝ, 0 < γ ∧ ∀ (s : St PyTime g) (tend : PyTime) (se : ℝ) (sf : St PyTime g) (saved : List (St PyTime g)), s.time.Compatible dt →
      s.time.SameKind tend → M.Returns S s dt tend se sf saved → ∀ s' ∈ sf :: saved,
        tiltSq g.rsphere (s'.streamFn N S) ≤ C * Real.exp (-(γ * (s'.time.sec - s.time.sec))) * tiltSq g.rsphere (s.streamFn N S) := by
  obtain ⟨C, γ, hC, hγ, key⟩ := C163_lost hg h h1 hT (specN_k2 h1) (specM_k2 h1) hM hν h0 dt hd hlim
  refine ⟨C ^ 2, 2 * γ, by linarith, fun s tend se sf saved hc hk hret s' hs' => ?_⟩
  have e := key s tend se sf saved hc hk hret s' hs'
  rw [tiltSq_eq hg h h1, tiltSq_eq hg h h1]
  have e2 := pow_le_pow_left₀ (norm_nonneg _) e 2
  have e3 : Real.exp (-(2 * γ * (s'.time.sec - s.time.sec))) = Real.exp (-(γ * (s'.time.sec - s.time.sec))) ^ 2 := by
    rw [← Real.exp_nat_mul]
    congr 1
    push_cast
    ring
  rw [e3]
  refine (mul_le_mul_of_nonneg_left e2 (sq_nonneg _)).trans_eq ?_
  ring

/-- C163: runs do not conserve the magnitude of the angular momentum: on every rotating planet, from every state with tilt and with every stable time step there is a run that
loses half of the tilt and none of the angular momentum about the axis. -/
theorem C163_conserved_refuted (hg : g.Valid) (h : Spharm.Dealiased N S) (h1 : 1 ≤ g.ntrunc) (hT : 2 * g.ntrunc + 1 ≤ g.nlat) (hM : M.rhs = none)
    (hν : M.diffusionCoeff = 0) (h0 : g.omega ≠ 0) {t : ℝ} {q : g.Spc} (hq : q (k2 h1) ≠ 0) {Δ : ℝ} (hd : 0 < Δ) (hlim : 3 * (g.omega * Δ) ^ 2 < 2) :
    ∃ (tend : ℝ) (sf : St PyTime g) (saved : List (St PyTime g)), M.Returns S ⟨.num t, q⟩ (.num Δ) (.num tend) 0 sf saved ∧
      totalMomentum g.rsphere (sf.streamFn N S) = totalMomentum g.rsphere ((⟨.num t, q⟩ : St PyTime g).streamFn N S) ∧
      tiltSq g.rsphere (sf.streamFn N S) < tiltSq g.rsphere ((⟨.num t, q⟩ : St PyTime g).streamFn N S) / 2 := by
  obtain ⟨s, hs⟩ : ∃ s : St PyTime g, s = ⟨.num t, q⟩ := ⟨_, rfl⟩
  rw [← hs]
  have hst : s.time = .num t := by rw [hs]
  have hpos : 0 < tiltSq g.rsphere (s.streamFn N S) := by
    rw [tiltSq_eq hg h h1, hs]
    have := hg.rsphere_pos
    have := modeNorm_pos (N := N) this.ne' h.exact.norm_ne (k2 h1)
    have hN := h.exact.norm_ne 1 1
    have := norm_pos_iff.mpr hq
    positivity
  obtain ⟨C, γ, hγ, key⟩ := C163_tilt (M := M) hg h h1 hT hM hν h0 (.num Δ) hd hlim
  -- long enough
  obtain ⟨D, hD, hlong⟩ : ∃ D : ℝ, 0 ≤ D ∧ ∀ D' ≥ D, C * Real.exp (-(γ * D')) < 1 / 2 := by
    refine ⟨max 0 (2 * |C| / γ), le_max_left _ _, fun D' hD' => ?_⟩
    have d1 : 2 * |C| ≤ D' * γ := by
      rw [← div_le_iff₀ hγ]
      exact (le_max_right _ _).trans hD'
    have d2 : γ * D' + 1 ≤ Real.exp (γ * D') := Real.add_one_le_exp _
    rw [Real.exp_neg, ← div_eq_mul_inv, div_lt_iff₀ (Real.exp_pos _)]
    have := le_abs_self C
    linarith
  obtain ⟨sf, saved, hret⟩ := C42_returns (S := S) (M := M) (fun f hf => by rw [hM] at hf; cases hf) s (.num Δ) (.num (t + D)) 0
    (by rw [hst]; trivial) (by rw [hst]; trivial) hd (.inl le_rfl) (by rw [hst]; simpa [PyTime.sec] using hD)
  refine ⟨t + D, sf, saved, hret, ?_, ?_⟩
  · exact (C162_momentum hg h h1 hT hν.ge (fun f hf => by rw [hM] at hf; cases hf) (dt := .num Δ) hd.le hret).1 hν sf List.mem_cons_self
  · have hend : t + D ≤ sf.time.sec := by
      obtain ⟨m, x, y, ks, hx, e1, -, -, e4, -⟩ := C100_run h.exact.linear hν.ge s (.num Δ) (.num (t + D)) 0 (by rw [hst]; trivial) (by rw [hst]; trivial) hd sf saved hret
      rw [e1, (hx.times m le_rfl).1, sec_stepTime (by rw [hst]; trivial)]
      exact e4
    have e := key s (.num (t + D)) 0 sf saved (by rw [hst]; trivial) (by rw [hst]; trivial) hret sf List.mem_cons_self
    have e2 := hlong (sf.time.sec - s.time.sec) (by rw [hst]; change D ≤ sf.time.sec - t; linarith)
    refine e.trans_lt ?_
    have := mul_lt_mul_of_pos_right e2 hpos
    linarith

/-- Non-vacuity of C163: such transforms exist on every grid with enough latitudes, and every state with a tilt can be used. -/
theorem C163_instances (hg : g.Valid) (h1 : 1 ≤ g.ntrunc) (hT : 2 * g.ntrunc + 2 ≤ g.nlat) (h0 : g.omega ≠ 0) :
    ∃ S : g.Sph, Spharm.Dealiased (fun _ _ => 1) S ∧ ∃ (q : g.Spc) (tend : ℝ) (sf : St PyTime g) (saved : List (St PyTime g)),
      (⟨none, 0, 0, none⟩ : BModel g).Returns S ⟨.num 0, q⟩ (.num (1 / (2 * |g.omega|))) (.num tend) 0 sf saved ∧
      tiltSq g.rsphere (sf.streamFn (fun _ _ => 1) S) < tiltSq g.rsphere ((⟨.num 0, q⟩ : St PyTime g).streamFn (fun _ _ => 1) S) / 2 := by
  obtain ⟨⟨S, h⟩, -⟩ := C119_exists (N := fun _ _ => 1) hg hT (fun _ _ => one_ne_zero)
  have ha : 0 < |g.omega| := abs_pos.mpr h0
  have hlim : 3 * (g.omega * (1 / (2 * |g.omega|))) ^ 2 < 2 := by
    have e : (g.omega * (1 / (2 * |g.omega|))) ^ 2 = 1 / 4 := by
      rw [mul_pow, div_pow, mul_pow, sq_abs, one_pow]
      field_simp
      norm_num
    rw [e]; norm_num
  obtain ⟨tend, sf, saved, r1, -, r2⟩ := C163_conserved_refuted (M := ⟨none, 0, 0, none⟩) hg h h1 (by omega) rfl rfl h0 (t := 0) (q := Pi.single (k2 h1) 1) (by simp)
    (Δ := 1 / (2 * |g.omega|)) (by positivity) hlim
  exact ⟨S, h, _, tend, sf, saved, r1, r2⟩

example := C163_instances grid30_valid (by change 1 ≤ 2; norm_num) (by rw [grid30_nlat]; change 2 * 2 + 2 ≤ 7; norm_num) (by change (1 : ℝ) ≠ 0; norm_num)

end Barotropic
