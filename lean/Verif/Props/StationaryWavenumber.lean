import Verif.Model.Waveguide
import Verif.Spec.Waveguide
import Verif.Lemmas.GridReal

/-!
# C65 Stationary wavenumber
-/

namespace Barotropic
open FloatX Grid

variable {g : Grid ℝ}

theorem derivativeProfile_pole (a d : Fin g.nlat → ℝ) (order : Order) (h : g.derivativeProfile a order = .ok d) (j : Fin g.nlat)
    (hj : j.val = 0 ∨ j.val = g.nlat - 1) : d j = 0 := by
  unfold derivativeProfile derivativeMeridional derivative2 derivative4 at h
  simp only [Arr.ndim, Arr.shape, List.length_singleton, show ¬ (2 < 1) by norm_num, if_false] at h
  split_ifs at h <;> simp only [Fin.cast_eq_self, dif_pos, Except.ok.injEq] at h <;> (try cases h)
  · rcases hj with hj | hj <;> simp [stencil2, hj]
  · rcases hj with hj | hj <;> simp [stencil4, hj]

theorem stationary_eq (u : ProfileOrField g) (pv : Option (ProfileOrField g)) (order : Order) (minU : ℝ) :
    (∃ e, ∀ kind, g.stationaryWavenumber u pv order minU kind = .error e) ∨
    ∃ q d, g.ksPv u pv order = .ok q ∧
      g.derivativeProfile q order = .ok d ∧ ∀ kind, g.stationaryWavenumber u pv order minU kind =
        (let ks2 := fun j : Fin g.nlat => ksSquared (Real.cos (g.phi j) ^ 2 * g.rsphere * d j) (u.zonalMean j) minU
        if kind = "squared" then .ok (.real ks2)
        else if kind = "complex" then .ok (.complex fun j => csqrt (ks2 j))
        else if kind = "real" then .ok (.real fun j => realVariant (csqrt (ks2 j)))
        else .error .valueError) := by
  unfold stationaryWavenumber
  rcases h1 : g.ksPv u pv order with e | q
  · exact Or.inl ⟨e, fun kind => rfl⟩
  · dsimp only
    rcases h2 : g.derivativeProfile q order with e | d
    · exact Or.inl ⟨e, fun kind => rfl⟩
    · exact Or.inr ⟨q, d, rfl, h2, fun kind => rfl⟩

theorem realVariant_csqrt (x : FloatX) : realVariant (csqrt x) = x.signedSqrt := by
  cases x with
  | fin x =>
    simp only [csqrt, signedSqrt]
    rcases lt_trichotomy x 0 with h | h | h
    · rw [if_neg (not_le.mpr h), sign_neg h, abs_of_neg h]
      simp [realVariant, sub, neg, add]
    · subst h; simp [realVariant, sub, neg, add]
    · rw [if_pos h.le, sign_pos h, abs_of_pos h]
      simp [realVariant, sub, neg, add]
  | pinf => rfl
  | ninf => rfl
  | nan => rfl

/-- C65: whenever the squared variant is computed, so are the others; the real variant is the signed square root of the squared
variant and the difference of real and imaginary part of the complex variant, which is a square root of the squared variant
(with one part 0 and the other not negative). -/
theorem C65_variants (u : ProfileOrField g) (pv : Option (ProfileOrField g)) (order : Order) (minU : ℝ) (s : Fin g.nlat → FloatX)
    (hs : g.stationaryWavenumber u pv order minU "squared" = .ok (.real s)) :
    ∃ z r, g.stationaryWavenumber u pv order minU "complex" = .ok (.complex z) ∧
      g.stationaryWavenumber u pv order minU "real" = .ok (.real r) ∧
      ∀ j, r j = (s j).signedSqrt ∧ r j = (z j).1.sub (z j).2 ∧
        (∀ x, s j = fin x → ∃ a b, z j = (fin a, fin b) ∧ 0 ≤ a ∧ 0 ≤ b ∧ a * b = 0 ∧ a ^ 2 - b ^ 2 = x) ∧
        (s j = pinf → z j = (pinf, fin 0)) ∧ (s j = ninf → z j = (fin 0, pinf)) := by
  rcases stationary_eq u pv order minU with ⟨e, h⟩ | ⟨q, d, h1, h2, h⟩
  · rw [h] at hs; cases hs
  · rw [h] at hs
    simp only [if_true, Except.ok.injEq, KsResult.real.injEq] at hs
    subst hs
    refine ⟨_, _, (h _).trans ?_, (h _).trans ?_, fun j => ⟨realVariant_csqrt _, rfl, fun x hx => ?_, fun hx => ?_, fun hx => ?_⟩⟩
    · simp only [show ("complex" = "squared") = False by decide, if_false, if_true]
    · simp only [show ("real" = "squared") = False by decide, show ("real" = "complex") = False by decide, if_false, if_true]
    · dsimp only at hx ⊢
      rw [hx]
      unfold csqrt
      by_cases h0 : 0 ≤ x
      · simp only [if_pos h0]
        refine ⟨_, _, rfl, Real.sqrt_nonneg _, le_rfl, by simp, ?_⟩
        rw [Real.sq_sqrt h0]; ring
      · simp only [if_neg h0]
        refine ⟨_, _, rfl, le_rfl, Real.sqrt_nonneg _, by simp, ?_⟩
        rw [Real.sq_sqrt (by linarith)]; ring
    · dsimp only at hx ⊢
      rw [hx]; rfl
    · dsimp only at hx ⊢
      rw [hx]; rfl

/-- C65: the signed square root preserves order and sign (infinities included). -/
theorem C65_order (x y : FloatX) : (x.signedSqrt.Lt y.signedSqrt ↔ x.Lt y) ∧ ((fin 0).signedSqrt = fin 0) := by
  refine ⟨?_, by simp [signedSqrt]⟩
  have hmono : StrictMono fun x : ℝ => (SignType.sign x : ℝ) * Real.sqrt |x| := by
    intro a b hab
    dsimp only
    rcases lt_trichotomy a 0 with ha | ha | ha <;> rcases lt_trichotomy b 0 with hb | hb | hb
    · rw [sign_neg ha, sign_neg hb, abs_of_neg ha, abs_of_neg hb]
      simp only [SignType.coe_neg_one, neg_mul, one_mul, neg_lt_neg_iff]
      exact Real.sqrt_lt_sqrt (by linarith) (by linarith)
    · subst hb; rw [sign_neg ha, abs_of_neg ha]
      simpa using Real.sqrt_pos.mpr (by linarith : 0 < -a)
    · rw [sign_neg ha, sign_pos hb, abs_of_neg ha, abs_of_pos hb]
      have h1 := Real.sqrt_pos.mpr (by linarith : 0 < -a)
      have h2 := Real.sqrt_pos.mpr hb
      simp only [SignType.coe_neg_one, SignType.coe_one]
      linarith
    · linarith
    · linarith
    · subst ha; rw [sign_pos hb, abs_of_pos hb]
      simpa using hb
    · linarith
    · linarith
    · rw [sign_pos ha, sign_pos hb, abs_of_pos ha, abs_of_pos hb]
      simp only [SignType.coe_one, one_mul]
      exact Real.sqrt_lt_sqrt ha.le hab
  cases x <;> cases y <;> simp only [signedSqrt, Lt]
  exact hmono.lt_iff_lt

/-- C65: invalid kinds raise ValueError, errors of the derivatives do not depend on the kind. -/
theorem C65_kind (u : ProfileOrField g) (pv : Option (ProfileOrField g)) (order : Order) (minU : ℝ) :
    (∃ e, ∀ kind, g.stationaryWavenumber u pv order minU kind = .error e) ∨
    ((∃ s, g.stationaryWavenumber u pv order minU "squared" = .ok (.real s)) ∧
      ∀ kind, kind ∉ ["squared", "complex", "real"] → g.stationaryWavenumber u pv order minU kind = .error .valueError) := by
  rcases stationary_eq u pv order minU with h | ⟨q, d, h1, h2, h⟩
  · exact Or.inl h
  · refine Or.inr ⟨⟨_, (h _).trans (if_pos rfl)⟩, fun kind hk => ?_⟩
    simp only [List.mem_cons, List.not_mem_nil, or_false, not_or] at hk
    rw [h]
    simp only [hk.1, hk.2.1, hk.2.2, if_false]

/-- C65: where the wind is small the result is infinite with the sign of the PV gradient, or 0 if there is no gradient;
elsewhere it is finite, the gradient divided by the wind. `q` is the zonal-mean PV, `d` its derivative. -/
theorem C65_values (hg : g.Valid) (u : ProfileOrField g) (p : ProfileOrField g) (order : Order) {minU : ℝ} (hm : 0 ≤ minU)
    (s d : Fin g.nlat → _) (hs : g.stationaryWavenumber u (some p) order minU "squared" = .ok (.real s))
    (hd : g.derivativeProfile p.zonalMean order = .ok d) (j : Fin g.nlat) :
    (|u.zonalMean j| ≤ minU → (0 < d j → s j = pinf) ∧ (d j < 0 → s j = ninf) ∧ (d j = 0 → s j = fin 0)) ∧
    (minU < |u.zonalMean j| → s j = fin (Real.cos (g.phi j) ^ 2 * g.rsphere * d j / u.zonalMean j)) := by
  rcases stationary_eq u (some p) order minU with ⟨e, h⟩ | ⟨q, d', h1, h2, h⟩
  · rw [h] at hs; cases hs
  simp only [ksPv, Except.ok.injEq] at h1
  subst h1
  rw [hd] at h2
  cases h2
  rw [h] at hs
  simp only [if_true, Except.ok.injEq, KsResult.real.injEq] at hs
  subst hs
  dsimp only
  unfold ksSquared
  constructor
  · intro hu
    have hpos : d j ≠ 0 → 0 < Real.cos (g.phi j) ^ 2 * g.rsphere := by
      intro hne
      have hr := hg.rsphere_pos
      have hint : ¬ (j.val = 0 ∨ j.val = g.nlat - 1) := fun hj => hne (derivativeProfile_pole _ _ _ hd j hj)
      have h1 := phi_strictAnti hg (show 0 < j.val by omega)
      have h2 := phi_strictAnti hg (show j.val < g.nlat - 1 by omega)
      rw [phi_zero hg] at h1
      rw [phi_last hg] at h2
      have := Real.cos_pos_of_mem_Ioo ⟨h2, h1⟩
      positivity
    rw [if_pos hu]
    refine ⟨fun h0 => ?_, fun h0 => ?_, fun h0 => ?_⟩
    · have := mul_pos (hpos h0.ne') h0
      rw [if_pos this.ne']
      simp [mul, signInf, this]
    · have := mul_neg_of_pos_of_neg (hpos h0.ne) h0
      rw [if_pos this.ne]
      simp [mul, signInf, this, not_lt.mpr this.le]
    · simp [h0]
  · intro hu
    have : u.zonalMean j ≠ 0 := by
      intro h0
      rw [h0, abs_zero] at hu
      linarith
    rw [if_neg (not_le.mpr hu)]
    simp [div, this]

/-- C65: with `min_u >= 0` no value is NaN. -/
theorem C65_no_nan (u : ProfileOrField g) (pv : Option (ProfileOrField g)) (order : Order) {minU : ℝ} (hm : 0 ≤ minU)
    (s : Fin g.nlat → FloatX) (hs : g.stationaryWavenumber u pv order minU "squared" = .ok (.real s)) (j : Fin g.nlat) : s j ≠ nan := by
  rcases stationary_eq u pv order minU with ⟨e, h⟩ | ⟨q, d', h1, h2, h⟩
  · rw [h] at hs; cases hs
  rw [h] at hs
  simp only [if_true, Except.ok.injEq, KsResult.real.injEq] at hs
  subst hs
  dsimp only
  unfold ksSquared
  split_ifs with h3 h4
  · have h5 : ∀ x : ℝ, x ≠ 0 → (fin x).mul pinf ≠ nan := by
      intro x hx
      simp only [mul, signInf]
      rcases lt_or_gt_of_ne hx with h | h
      · simp [h, not_lt.mpr h.le]
      · simp [h]
    exact h5 _ h4
  · simp
  · have : u.zonalMean j ≠ 0 := by
      intro h0
      rw [h0, abs_zero] at h3
      exact h3 hm
    simp [div, this]

/-- C65: without a PV field, PV is the planetary vorticity plus the relative vorticity of the zonal-mean wind. -/
theorem C65_pv_from_wind (u : ProfileOrField g) (order : Order) (minU : ℝ) (kind : String) (d : Fin g.nlat → ℝ)
    (hd : g.derivativeProfile (fun j => u.zonalMean j * Real.cos (g.phi j)) order = .ok d) :
    g.stationaryWavenumber u none order minU kind =
      g.stationaryWavenumber u (some (.profile fun j => g.fcor j - d j / (g.rsphere * Real.cos (g.phi j)))) order minU kind := by
  unfold stationaryWavenumber ksPv pvFromWind
  rw [hd]
  have : (fun j : Fin g.nlat => g.fcor j + -d j / g.rsphere / Real.cos (g.phi j)) =
      fun j : Fin g.nlat => g.fcor j - d j / (g.rsphere * Real.cos (g.phi j)) := by
    funext j
    rw [div_div, neg_div, ← sub_eq_add_neg]
  simp only [this]
  rfl

/-- C65: 2-dimensional fields are replaced by their zonal means. -/
theorem C65_zonal_mean (u p : Fin g.nlat → Fin g.nlon → ℝ) (order : Order) (minU : ℝ) (kind : String) :
    g.stationaryWavenumber (.field u) (some (.field p)) order minU kind =
      g.stationaryWavenumber (.profile fun j => (∑ i, u j i) / g.nlon) (some (.profile fun j => (∑ i, p j i) / g.nlon)) order minU kind ∧
    g.stationaryWavenumber (.field u) none order minU kind =
      g.stationaryWavenumber (.profile fun j => (∑ i, u j i) / g.nlon) none order minU kind := ⟨rfl, rfl⟩

/-- Non-vacuity of C65, also an end-to-end check: for an atmosphere at rest on a rotating planet the stationary wavenumber is
infinite everywhere between the poles and 0 at the poles. -/
theorem C65_rest (hg : g.Valid) (ho : 0 < g.omega) :
    ∃ s, g.stationaryWavenumber (.profile fun _ => 0) none (.int 2) (1 / 1000) "real" = .ok (.real s) ∧
      ∀ j : Fin g.nlat, s j = if j.val = 0 ∨ j.val = g.nlat - 1 then fin 0 else pinf := by
  have hn := hg.nlat_ge
  have hD : ∀ a : Fin g.nlat → ℝ, g.derivativeProfile a (.int 2) = .ok fun j => stencil2 false g.nlat (col a) j / 2 / g.dphi := by
    intro a
    unfold derivativeProfile derivativeMeridional derivative2
    simp [Arr.ndim, Arr.shape, show ¬ g.nlat < 3 by omega]
  have hz : (fun j : Fin g.nlat => stencil2 false g.nlat (col fun j : Fin g.nlat => (0 : ℝ) * Real.cos (g.phi j)) j / 2 / g.dphi) = fun _ => 0 := by
    funext j
    simp [stencil2, col]
  have hpv := C65_pv_from_wind (g := g) (.profile fun _ => 0) (.int 2) (1 / 1000)
  have e1 : ∀ kind, g.stationaryWavenumber (.profile fun _ => 0) none (.int 2) (1 / 1000) kind =
      g.stationaryWavenumber (.profile fun _ => 0) (some (.profile fun j => g.fcor j)) (.int 2) (1 / 1000) kind := by
    intro kind
    rw [hpv kind _ (hD _)]
    have : (fun j : Fin g.nlat => g.fcor j - (stencil2 false g.nlat (col fun j : Fin g.nlat => (0 : ℝ) * Real.cos (g.phi j)) j / 2 / g.dphi) / (g.rsphere * Real.cos (g.phi j))) =
        fun j : Fin g.nlat => g.fcor j := by
      funext j
      rw [congrFun hz j]; simp
    rw [← this]
    rfl
  have hsq : ∃ s, g.stationaryWavenumber (.profile fun _ => 0) (some (.profile fun j => g.fcor j)) (.int 2) (1 / 1000) "squared" = .ok (.real s) := by
    rcases C65_kind (g := g) (.profile fun _ => 0) (some (.profile fun j => g.fcor j)) (.int 2) (1 / 1000) with ⟨e, h⟩ | ⟨h, -⟩
    · have := h "squared"
      unfold stationaryWavenumber at this
      simp only [ksPv, ProfileOrField.zonalMean, hD, if_true] at this
      cases this
    · exact h
  obtain ⟨s, hs⟩ := hsq
  obtain ⟨z, r, -, hr, hv⟩ := C65_variants _ _ _ _ s hs
  refine ⟨r, (e1 _).trans hr, fun j => ?_⟩
  rw [(hv j).1]
  have hval := (C65_values hg (.profile fun _ => 0) (.profile fun j => g.fcor j) (.int 2) (by norm_num) s _ hs (hD _) j).1
    (by simp [ProfileOrField.zonalMean])
  split_ifs with hj
  · rw [hval.2.2 (derivativeProfile_pole _ _ _ (hD _) j hj)]
    simp [signedSqrt]
  · rw [hval.1]
    · rfl
    · have hj' := j.isLt
      have hdp : g.dphi < 0 := by
        have := hg.res_pos
        have := Real.pi_pos
        unfold dphi deg2rad dlat
        nlinarith [mul_pos hg.res_pos (div_pos Real.pi_pos (by norm_num : (0 : ℝ) < 180))]
      unfold stencil2
      rw [if_neg (by omega), if_neg (by omega)]
      unfold col ProfileOrField.zonalMean
      rw [dif_pos (show j.val + 1 < g.nlat by omega), dif_pos (show j.val - 1 < g.nlat by omega)]
      refine div_pos_of_neg_of_neg ?_ hdp
      unfold fcor coriolis
      have hlt := phi_strictAnti hg (show j.val - 1 < j.val + 1 by omega)
      have hm1 := phi_mem hg (show j.val + 1 < g.nlat by omega)
      have hm2 := phi_mem hg (show j.val - 1 < g.nlat by omega)
      have := Real.strictMonoOn_sin ⟨hm1.1, hm1.2⟩ ⟨hm2.1, hm2.2⟩ hlt
      unfold phi at this
      dsimp only
      nlinarith

end Barotropic
