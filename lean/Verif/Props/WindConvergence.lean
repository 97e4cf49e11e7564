import Verif.Props.SmoothUnique

/-!
# Convergence of wind and energy: C127
-/

namespace Barotropic
open Real (cos sin)
open Set

variable {N : ℕ → ℕ → ℝ} {g : Grid ℝ} {S : g.Sph} {M : BModel g}

/-- `U` and `V` are the components of the gradient and smooth. -/
structure HasGrad (r : ℝ) (A U V : ℝ → ℝ → ℝ) : Prop where
  east : SphereSmooth U
  north : SphereSmooth V
  eq : ∀ x y, cos y ≠ 0 → sphereGrad r A x y = (U x y, V x y)

theorem HasGrad.harmonic {T : ℕ} {r : ℝ} (hr : r ≠ 0) (p : SpecField T) :
    HasGrad r (harmonicSum N p) (fun x y => lamDeriv N p x y / r) (fun x y => phiDeriv N p x y / r) :=
  ⟨lamDeriv_smooth p r, phiDeriv_smooth p r, fun x _ hy => sphereGrad_harmonicSum hr p x hy⟩

theorem HasGrad.onSphere {F : (Fin 4 → ℝ) → ℝ} (hF : ContDiff ℝ (⊤ : ℕ∞) F) (r t : ℝ) :
    HasGrad r (onSphere F t) (fun x y => Barotropic.east F t x y / r) (fun x y => Barotropic.north F t x y / r) :=
  ⟨(east_smooth hF t).div_const r, (north_smooth hF t).div_const r, fun x _ hy => sphereGrad_onSphere hF r t x hy⟩

section
variable {r : ℝ} {A B C U V U' V' U'' V'' : ℝ → ℝ → ℝ}

theorem windDist_eq (hA : HasGrad r A U V) (hB : HasGrad r B U' V') :
    windDist r A B = sphereIntegral r fun x y => (U x y - U' x y) ^ 2 + (V x y - V' x y) ^ 2 :=
  sphereIntegral_congr r fun x y hy => by rw [hA.eq x y hy, hB.eq x y hy]

theorem windDist_triangle (hA : HasGrad r A U V) (hB : HasGrad r B U' V') (hC : HasGrad r C U'' V'') :
    windDist r A C ≤ 2 * windDist r A B + 2 * windDist r B C := by
  rw [windDist_eq hA hB, windDist_eq hA hC, windDist_eq hB hC]
  have s1 := ((hA.east.sub hB.east).pow 2).add ((hA.north.sub hB.north).pow 2)
  have s2 := ((hB.east.sub hC.east).pow 2).add ((hB.north.sub hC.north).pow 2)
  have s3 := ((hA.east.sub hC.east).pow 2).add ((hA.north.sub hC.north).pow 2)
  rw [← sphereIntegral_lin s1 s2 r 2 2]
  have h2 : ∀ {H : ℝ → ℝ → ℝ}, SphereSmooth H → SphereSmooth fun x y => 2 * H x y := fun hH => (SphereSmooth.lat contDiff_const).mul hH
  refine sphereIntegral_mono s3 ((h2 s1).add (h2 s2)) r fun x y _ => ?_
  nlinarith [sq_nonneg ((U x y - U' x y) - (U' x y - U'' x y)), sq_nonneg ((V x y - V' x y) - (V' x y - V'' x y))]

theorem windDist_le_area (hA : HasGrad r A U V) (hB : HasGrad r B U' V') {ε : ℝ} (h1 : ∀ x y, |U x y - U' x y| ≤ ε) (h2 : ∀ x y, |V x y - V' x y| ≤ ε) :
    windDist r A B ≤ 2 * (area r * ε ^ 2) := by
  rw [windDist_eq hA hB]
  have s1 := hA.east.sub hB.east
  have s2 := hA.north.sub hB.north
  have e := sphereIntegral_lin (s1.pow 2) (s2.pow 2) r 1 1
  simp only [one_mul] at e
  rw [e]
  have a := integral_le_area s1 r (fun x y _ => h1 x y)
  have b := integral_le_area s2 r (fun x y _ => h2 x y)
  linarith

end

/-- Wind is controlled by vorticity: states whose PV is close to that of a smooth flow have a wind that is close to it. -/
theorem wind_of_vort {r Ω : ℝ} {F : (Fin 4 → ℝ) → ℝ} (hF : ContDiff ℝ (⊤ : ℕ∞) F) (t0 t1 : ℝ) {η : ℝ} (hη : 0 < η) :
    ∃ T0 : ℕ, ∃ ε > 0, ∀ {g : Grid ℝ} {N : ℕ → ℕ → ℝ} {S : g.Sph} {B : ℕ}, g.Valid → g.rsphere = r → g.omega = Ω → T0 ≤ g.ntrunc → Spharm.Exact N B S → 1 ≤ B →
      ∀ {τ : Type} (s : St τ g), ∀ t ∈ Icc t0 t1, sqDist r (s.pvFn N) (onSphere (vort r Ω F) t) ≤ ε → windDist r (s.streamFn N S) (onSphere F t) < η := by
  by_cases hr : 0 < r
  swap
  · exact ⟨0, 1, one_pos, fun hg hgr => absurd (hgr ▸ hg.rsphere_pos) hr⟩
  obtain ⟨b, hb⟩ : ∃ b, b = max |t0| |t1| + 1 := ⟨_, rfl⟩
  have hb1 : 1 ≤ b := by
    have := (abs_nonneg t0).trans (le_max_left |t0| |t1|)
    linarith
  have hbt : ∀ t ∈ Icc t0 t1, |t| ≤ b := fun t htt => by
    have := abs_le_max_abs_abs htt.1 htt.2
    linarith
  obtain ⟨P, hP⟩ := exists_polys (lt_of_lt_of_le one_pos hb1) hF
  have u1 := SmoothLimit.onSphere hb1 (hP.vort subset_rfl r Ω)
  have u2 := hP.east hb1
  have u3 := hP.north hb1
  have hA := area_nonneg r
  -- tolerances
  obtain ⟨κ, hκ⟩ : ∃ κ, κ = η / (16 * (r ^ 2 + 1)) := ⟨_, rfl⟩
  have hκp : 0 < κ := hκ ▸ (by positivity)
  have hκη : κ * (r ^ 2 + 1) = η / 16 := by rw [hκ]; field_simp
  obtain ⟨ε1, hε1⟩ : ∃ ε1, ε1 = min 1 (κ / (area r + 1)) := ⟨_, rfl⟩
  have hε1p : 0 < ε1 := hε1 ▸ lt_min one_pos (by positivity)
  have hε11 : ε1 ≤ 1 := hε1 ▸ min_le_left _ _
  have hκ1 : area r * ε1 ^ 2 ≤ κ := by
    have h2 : ε1 * (area r + 1) ≤ κ := (le_div_iff₀ (by linarith)).mp (hε1 ▸ min_le_right _ _)
    have h3 : ε1 ^ 2 ≤ ε1 := by nlinarith
    nlinarith
  obtain ⟨m, hm1, hm2, hm3⟩ := ((u1.tends ε1 hε1p).and ((u2.tends (r * ε1) (by positivity)).and (u3.tends (r * ε1) (by positivity)))).exists
  obtain ⟨Fm, hFm⟩ : ∃ Fm : (Fin 4 → ℝ) → ℝ, Fm = fun x => (P m).eval x := ⟨_, rfl⟩
  have hFs : ContDiff ℝ (⊤ : ℕ∞) Fm := hFm ▸ mvPoly_smooth (P m)
  rw [← hFm] at hm1 hm2 hm3
  obtain ⟨D, hD⟩ := mvPoly_harmonic (P m)
  refine ⟨max D 1, κ, hκp, fun {g N S B} hg hgr hgo hT0 h hB {τ} s t ht hs => ?_⟩
  have h1 : 1 ≤ g.ntrunc := (le_max_right _ _).trans hT0
  have hN := h.norm_ne
  obtain ⟨c, c', -, hc⟩ := hD N hN g.ntrunc ((le_max_left _ _).trans hT0)
  replace hc : ∀ t x y, onSphere Fm t x y = harmonicSum N (c t) x y := fun t x y => by rw [hFm]; exact hc t x y
  subst hgr
  subst hgo
  have hp := fun t x y (hy : cos y ≠ 0) => vortCoeff_fn hr.ne' hN h1 g.omega hFs (hc t) x hy
  have hsV := onSphere_smooth (vort_smooth g.rsphere g.omega hF) t
  have hpQ : sqDist g.rsphere (harmonicSum N (vortCoeff N g.rsphere g.omega (c t))) (onSphere (vort g.rsphere g.omega F) t) ≤ κ := by
    refine (integral_le_area ((harmonicSum_smooth _).sub hsV) g.rsphere (ε := ε1) fun x y hy => ?_).trans hκ1
    rw [hp t x y hy]
    exact hm1 t (hbt t ht) x y
  have hv : s.vorticitySpectral S = s.q - solidRotation N g.omega := by
    unfold St.vorticitySpectral
    rw [h.fcor2 h1 hB]
  obtain ⟨a, ha⟩ : ∃ a : g.Spc, a = s.q - vortCoeff N g.rsphere g.omega (c t) := ⟨_, rfl⟩
  obtain ⟨l, hl⟩ : ∃ l : g.Spc, l = invLaplace g.rsphere (-degMul (fun n => n * (n + 1) / g.rsphere ^ 2) (c t)) := ⟨_, rfl⟩
  have hψ : invLaplace g.rsphere (s.vorticitySpectral S) = l + invLaplace g.rsphere a := by
    rw [hl, ← invLaplace_add, hv, ha]
    unfold vortCoeff
    congr 1
    abel
  have gψ := HasGrad.harmonic (N := N) hr.ne' (invLaplace g.rsphere (s.vorticitySpectral S))
  have gl := HasGrad.harmonic (N := N) hr.ne' l
  have gF := HasGrad.onSphere hF g.rsphere t
  have gm := HasGrad.onSphere hFs g.rsphere t
  have e1 : windDist g.rsphere (s.streamFn N S) (harmonicSum N l) =
      windPair g.rsphere (harmonicSum N (invLaplace g.rsphere a)) (harmonicSum N (invLaplace g.rsphere a)) := by
    rw [streamFn_eq, windDist_eq gψ gl, windPair_eq hr.ne']
    refine sphereIntegral_congr _ fun x y _ => ?_
    rw [hψ, lamDeriv_add, phiDeriv_add]
    ring
  have e2 : spherePair g.rsphere (harmonicSum N a) (harmonicSum N a) =
      sqDist g.rsphere (s.pvFn N) (harmonicSum N (vortCoeff N g.rsphere g.omega (c t))) := by
    refine sphereIntegral_congr _ fun x y _ => ?_
    rw [ha, show s.q - vortCoeff N g.rsphere g.omega (c t) = s.q + (-1 : ℝ) • vortCoeff N g.rsphere g.omega (c t) by rw [neg_one_smul, sub_eq_add_neg],
      harmonicSum_lin]
    unfold St.pvFn
    ring
  have e3 : windDist g.rsphere (harmonicSum N l) (onSphere F t) = windDist g.rsphere (onSphere Fm t) (onSphere F t) :=
    sphereIntegral_congr _ fun x y hy => by rw [hl, stream_grad hr.ne' (hc t) x hy]
  have b1 := wind_bound (N := N) hr.ne' hN a
  rw [e2] at b1
  have b2 := sqDist_triangle (r := g.rsphere) (harmonicSum_smooth (N := N) s.q) hsV (harmonicSum_smooth (N := N) (vortCoeff N g.rsphere g.omega (c t)))
  change sqDist g.rsphere (s.pvFn N) _ ≤ 2 * sqDist g.rsphere (s.pvFn N) _ + _ at b2
  rw [sqDist_comm] at hpQ
  have b3 : windDist g.rsphere (onSphere Fm t) (onSphere F t) ≤ 2 * (area g.rsphere * ε1 ^ 2) := by
    refine windDist_le_area gm gF (fun x y => ?_) fun x y => ?_
    · rw [← sub_div, abs_div, abs_of_pos hr, div_le_iff₀ hr, mul_comm ε1]
      exact hm2 t (hbt t ht) x y
    · rw [← sub_div, abs_div, abs_of_pos hr, div_le_iff₀ hr, mul_comm ε1]
      exact hm3 t (hbt t ht) x y
  have b4 := windDist_triangle (r := g.rsphere) (A := s.streamFn N S) (by rw [streamFn_eq]; exact gψ) gl gF
  rw [e1, e3] at b4
  have b5 : sqDist g.rsphere (s.pvFn N) (harmonicSum N (vortCoeff N g.rsphere g.omega (c t))) ≤ 4 * κ := by linarith
  have b6 : g.rsphere ^ 2 / 2 * sqDist g.rsphere (s.pvFn N) (harmonicSum N (vortCoeff N g.rsphere g.omega (c t))) ≤ g.rsphere ^ 2 / 2 * (4 * κ) :=
    mul_le_mul_of_nonneg_left b5 (by positivity)
  have hr2 : 0 < g.rsphere ^ 2 := by positivity
  nlinarith

theorem energy_diff {r : ℝ} {A B U V U' V' : ℝ → ℝ → ℝ} (hA : HasGrad r A U V) (hB : HasGrad r B U' V') {δ : ℝ} (hδ : 0 < δ) :
    |totalEnergy r A - totalEnergy r B| ≤ (1 + 1 / δ) / 2 * windDist r A B + δ * totalEnergy r B := by
  have eA : totalEnergy r A = sphereIntegral r fun x y => (U x y ^ 2 + V x y ^ 2) / 2 :=
    sphereIntegral_congr r fun x y hy => by rw [hA.eq x y hy]
  have eB : totalEnergy r B = sphereIntegral r fun x y => (U' x y ^ 2 + V' x y ^ 2) / 2 :=
    sphereIntegral_congr r fun x y hy => by rw [hB.eq x y hy]
  have sA := ((hA.east.pow 2).add (hA.north.pow 2)).div_const 2
  have sB := ((hB.east.pow 2).add (hB.north.pow 2)).div_const 2
  have sD := ((hA.east.sub hB.east).pow 2).add ((hA.north.sub hB.north).pow 2)
  have hc : ∀ (c : ℝ) {H : ℝ → ℝ → ℝ}, SphereSmooth H → SphereSmooth fun x y => c * H x y := fun c _ hH => (SphereSmooth.lat contDiff_const).mul hH
  have pt : ∀ a b : ℝ, |a ^ 2 / 2 - b ^ 2 / 2| ≤ (1 + 1 / δ) / 2 * (a - b) ^ 2 + δ * (b ^ 2 / 2) := fun a b => by
    obtain ⟨d, hd⟩ : ∃ d, d = a - b := ⟨_, rfl⟩
    have e : a = b + d := by rw [hd]; ring
    have h2 : 2 * |b * d| ≤ δ * b ^ 2 + 1 / δ * d ^ 2 := by
      have h3 : 0 ≤ (δ * |b| - |d|) ^ 2 / δ := by positivity
      have h4 : (δ * |b| - |d|) ^ 2 / δ = δ * |b| ^ 2 - 2 * (|b| * |d|) + 1 / δ * |d| ^ 2 := by field_simp; ring
      rw [h4, sq_abs, sq_abs, ← abs_mul] at h3
      linarith
    rw [← hd, e, show (b + d) ^ 2 / 2 - b ^ 2 / 2 = b * d + d ^ 2 / 2 by ring]
    refine (abs_add_le _ _).trans ?_
    rw [abs_of_nonneg (show 0 ≤ d ^ 2 / 2 by positivity)]
    linarith
  have hpt : ∀ x y, |(U x y ^ 2 + V x y ^ 2) / 2 - (U' x y ^ 2 + V' x y ^ 2) / 2| ≤
      (1 + 1 / δ) / 2 * ((U x y - U' x y) ^ 2 + (V x y - V' x y) ^ 2) + δ * ((U' x y ^ 2 + V' x y ^ 2) / 2) := fun x y => by
    have a := pt (U x y) (U' x y)
    have b := pt (V x y) (V' x y)
    refine le_trans (le_of_eq_of_le ?_ (abs_add_le (U x y ^ 2 / 2 - U' x y ^ 2 / 2) (V x y ^ 2 / 2 - V' x y ^ 2 / 2))) (by linarith)
    congr 1
    ring
  rw [windDist_eq hA hB, eA, eB, ← sphereIntegral_lin sD sB r ((1 + 1 / δ) / 2) δ, abs_le]
  have hS := (hc ((1 + 1 / δ) / 2) sD).add (hc δ sB)
  have e1 := sphereIntegral_lin sA sB r 1 (-1)
  have e2 := sphereIntegral_lin sB sA r 1 (-1)
  have m1 := sphereIntegral_mono ((hc 1 sA).add (hc (-1) sB)) hS r fun x y _ => by
    have := le_of_abs_le (hpt x y)
    linarith
  have m2 := sphereIntegral_mono ((hc 1 sB).add (hc (-1) sA)) hS r fun x y _ => by
    have := neg_le_of_abs_le (hpt x y)
    linarith
  constructor <;> linarith

/-- Energy of a smooth flow is bounded. -/
theorem energy_bounded {F : (Fin 4 → ℝ) → ℝ} (hF : ContDiff ℝ (⊤ : ℕ∞) F) (r t0 t1 : ℝ) : ∃ E > 0, ∀ t ∈ Icc t0 t1, totalEnergy r (onSphere F t) ≤ E := by
  obtain ⟨b, hb⟩ : ∃ b, b = max |t0| |t1| + 1 := ⟨_, rfl⟩
  have hb1 : 1 ≤ b := by
    have := (abs_nonneg t0).trans (le_max_left |t0| |t1|)
    linarith
  have hbt : ∀ t ∈ Icc t0 t1, |t| ≤ b := fun t htt => by
    have := abs_le_max_abs_abs htt.1 htt.2
    linarith
  have hL := SmoothLimit.const (Metric.closedBall (0 : Fin 4 → ℝ) b) hF
  obtain ⟨Ke, hKe⟩ := (hL.east hb1).bounded
  obtain ⟨Kn, hKn⟩ := (hL.north hb1).bounded
  have hA := area_nonneg r
  refine ⟨area r * (Ke / |r|) ^ 2 / 2 + area r * (Kn / |r|) ^ 2 / 2 + 1, by positivity, fun t ht => ?_⟩
  have gF := HasGrad.onSphere hF r t
  have eB : totalEnergy r (onSphere F t) = sphereIntegral r fun x y => (1 / 2) * (Barotropic.east F t x y / r) ^ 2 + (1 / 2) * (Barotropic.north F t x y / r) ^ 2 :=
    sphereIntegral_congr r fun x y hy => by rw [gF.eq x y hy]; ring
  have a := integral_le_area gF.east r (ε := Ke / |r|) fun x y _ => by
    rw [abs_div]; exact div_le_div_of_nonneg_right (hKe t (hbt t ht) x y) (abs_nonneg r)
  have b := integral_le_area gF.north r (ε := Kn / |r|) fun x y _ => by
    rw [abs_div]; exact div_le_div_of_nonneg_right (hKn t (hbt t ht) x y) (abs_nonneg r)
  rw [eB, sphereIntegral_lin (gF.east.pow 2) (gF.north.pow 2) r]
  linarith

/-- C127: PV, wind and energy of the states returned by `run` converge to those of smooth solutions of the barotropic vorticity equation: for every
tolerance there is a truncation from which on the mean square errors are within the tolerance at all times, if the initial state is sufficiently accurate
and the time step sufficiently small. -/
theorem C127_converges {r Ω ν W t0 t1 t2 : ℝ} {order : ℕ} {Ψ : ℝ → ℝ → ℝ → ℝ} (hν : 0 ≤ ν)
    (hΨ : SmoothSolution r Ω ν order W t0 t1 Ψ) (h02 : t0 ≤ t2) (h21 : t2 < t1) {η : ℝ} (hη : 0 < η) :
    ∃ T0 : ℕ, ∃ ε > 0, ∀ {g : Grid ℝ} {N : ℕ → ℕ → ℝ} {S : g.Sph} {M : BModel g}, g.Valid → g.rsphere = r → g.omega = Ω → T0 ≤ g.ntrunc →
      2 * g.ntrunc + 1 ≤ g.nlat → Spharm.Dealiased N S → M.diffusionCoeff = ν → M.diffusionOrder = order → M.DiffusesAround W → M.rhs = none →
      (∃ q : g.Spc, sqDist r (harmonicSum N q) (absVort r Ω (Ψ t0)) ≤ ε) ∧
      ∀ s : St PyTime g, s.time.sec = t0 → sqDist r (s.pvFn N) (absVort r Ω (Ψ t0)) ≤ ε → ∃ δ > 0,
        ∀ (dt : PyDelta) (tend : PyTime) (se : ℝ), s.time.Compatible dt → s.time.SameKind tend → 0 < toSeconds dt → toSeconds dt < δ →
        t0 ≤ tend.sec → tend.sec ≤ t2 → (se ≤ 0 ∨ ∃ x, s.time = .num x) →
        ∃ sf saved, M.Returns S s dt tend se sf saved ∧ tend.sec ≤ sf.time.sec ∧ ∀ w ∈ sf :: saved, w.time.sec ∈ Icc t0 t1 ∧
          sqDist r (w.pvFn N) (absVort r Ω (Ψ w.time.sec)) < η ∧ windDist r (w.streamFn N S) (Ψ w.time.sec) < η ∧
          |totalEnergy r (w.streamFn N S) - totalEnergy r (Ψ w.time.sec)| < η := by
  obtain ⟨F, hF, hΨF⟩ := hΨ.smooth
  have hΨt : ∀ t, Ψ t = onSphere F t := fun t => by funext x y; exact hΨF t x y
  obtain ⟨E, hE, hEb⟩ := energy_bounded hF r t0 t1
  obtain ⟨d, hd⟩ : ∃ d, d = η / (2 * E) := ⟨_, rfl⟩
  have hdp : 0 < d := hd ▸ (by positivity)
  have hdE : d * E = η / 2 := by rw [hd]; field_simp
  obtain ⟨η1, hη1⟩ : ∃ η1, η1 = min η (η / (1 + 1 / d)) := ⟨_, rfl⟩
  have hη1p : 0 < η1 := hη1 ▸ lt_min hη (by positivity)
  have hη1η : η1 ≤ η := hη1 ▸ min_le_left _ _
  have hη1d : η1 * (1 + 1 / d) ≤ η := (le_div_iff₀ (by positivity)).mp (hη1 ▸ min_le_right _ _)
  obtain ⟨T1, ε1, hε1, k1⟩ := wind_of_vort (r := r) (Ω := Ω) hF t0 t1 hη1p
  obtain ⟨T2, ε2, hε2, k2⟩ := C121_converges hν hΨ h02 h21 (lt_min hη hε1)
  refine ⟨max (max T1 1) T2, ε2, hε2, fun {g N S M} hg hgr hgo hT0 hT h hMν hMo hW hrhs => ?_⟩
  have h1 : 1 ≤ g.ntrunc := ((le_max_right _ _).trans (le_max_left _ _)).trans hT0
  obtain ⟨hq, hrun⟩ := k2 hg hgr hgo ((le_max_right _ _).trans hT0) hT h hMν hMo hW hrhs
  refine ⟨hq, fun s hs hs0 => ?_⟩
  obtain ⟨δ, hδ, hr⟩ := hrun s hs hs0
  refine ⟨δ, hδ, fun dt tend se hc hk hd0 hdδ hst hend hse => ?_⟩
  obtain ⟨sf, saved, r1, r2, r3⟩ := hr dt tend se hc hk hd0 hdδ hst hend hse
  refine ⟨sf, saved, r1, r2, fun w hw => ?_⟩
  obtain ⟨w1, w2⟩ := r3 w hw
  have w3 : windDist r (w.streamFn N S) (onSphere F w.time.sec) < η1 := by
    refine k1 hg hgr hgo (((le_max_left _ _).trans (le_max_left _ _)).trans hT0) h.exact (by omega) w _ w1 (le_trans (le_of_eq ?_) (w2.le.trans (min_le_right _ _)))
    refine sphereIntegral_congr r fun x y hy => ?_
    rw [← absVort_onSphere hF r Ω _ x hy, hΨt]
  refine ⟨w1, w2.trans_le (min_le_left _ _), by rw [hΨt]; exact w3.trans_le hη1η, ?_⟩
  rw [hΨt]
  have hr0 : r ≠ 0 := hgr ▸ hg.rsphere_pos.ne'
  have gψ := HasGrad.harmonic (N := N) hr0 (invLaplace g.rsphere (w.vorticitySpectral S))
  have e := energy_diff (A := w.streamFn N S) (by rw [streamFn_eq]; exact gψ) (HasGrad.onSphere hF r w.time.sec) hdp
  have e2 := mul_le_mul_of_nonneg_left (hEb _ w1) hdp.le
  have e3 : (1 + 1 / d) / 2 * windDist r (w.streamFn N S) (onSphere F w.time.sec) < (1 + 1 / d) / 2 * η1 :=
    mul_lt_mul_of_pos_left w3 (by positivity)
  linarith

/-- C127: the gridded wind of a state is the wind with the streamfunction `streamFn`. -/
theorem C127_samples {τ : Type} {B : ℕ} (hg : g.Valid) (h : Spharm.Exact N B S) (s : St τ g) :
    ∃ U V, HasGrad g.rsphere (s.streamFn N S) V (fun x y => -U x y) ∧ s.u S = g.sample U ∧ s.v S = g.sample V := by
  have hr := hg.rsphere_pos.ne'
  have gψ := HasGrad.harmonic (N := N) hr (invLaplace g.rsphere (s.vorticitySpectral S))
  rw [← streamFn_eq] at gψ
  have hz : invLaplace g.rsphere (0 : g.Spc) = 0 := by funext k; simp [invLaplace, degMul]
  refine ⟨fun x y => -(phiDeriv N (invLaplace g.rsphere (s.vorticitySpectral S)) x y / g.rsphere),
    fun x y => lamDeriv N (invLaplace g.rsphere (s.vorticitySpectral S)) x y / g.rsphere, ?_, ?_, ?_⟩
  · simp only [neg_neg]
    exact gψ
  · unfold St.u St.invertPv Grid.wind
    simp only [h.wind]
    funext j i
    simp only [Grid.sample, hz, lamDeriv_zero, phiDeriv_zero, add_zero]
    ring
  · unfold St.v St.invertPv Grid.wind
    simp only [h.wind]
    funext j i
    simp only [Grid.sample, hz, lamDeriv_zero, phiDeriv_zero, add_zero]

/-- Non-vacuity of C127: the damped wave on grids with radius 1 -/
example : ∃ (g : Grid ℝ) (S : g.Sph) (s : St PyTime g), g.Valid ∧ ∃ δ > 0, ∀ h > 0, h < δ →
    ∃ sf saved, (⟨none, 2, 1 / 100, some g.fcor2⟩ : BModel g).Returns S s (.num h) (.num 10) 0 sf saved ∧ 10 ≤ sf.time.sec ∧
      windDist 1 (sf.streamFn (fun _ _ => 1) S) (fun x y => Real.exp (-(1 / 100 * (2 / 1 ^ 2) ^ 2 * sf.time.sec)) * cos y * cos (x + 1 * sf.time.sec)) < 1 / 1000 := by
  obtain ⟨T0, ε, hε, key⟩ := C127_converges (t2 := 10) (η := 1 / 1000) (show (0 : ℝ) ≤ 1 / 100 by norm_num) (damped_wave one_ne_zero 1 (1 / 100) 2 0 11) (by norm_num)
    (by norm_num) (by norm_num)
  obtain ⟨g, S, hg, g1, g2, g3, g4, h⟩ := C121_grids one_pos 1 T0
  obtain ⟨⟨q, hq⟩, hrun⟩ := key (M := ⟨none, 2, 1 / 100, some g.fcor2⟩) hg g1 g2 g3.ge g4 h rfl rfl (.inr ⟨rfl, g2.symm⟩) rfl
  obtain ⟨δ, hδ, hr⟩ := hrun ⟨.num 0, q⟩ rfl hq
  refine ⟨g, S, ⟨.num 0, q⟩, hg, δ, hδ, fun dt hd hdδ => ?_⟩
  obtain ⟨sf, saved, r1, r2, r3⟩ := hr (.num dt) (.num 10) 0 trivial trivial hd hdδ (by norm_num [PyTime.sec]) le_rfl (.inl le_rfl)
  exact ⟨sf, saved, r1, r2, (r3 sf List.mem_cons_self).2.2.1⟩

end Barotropic
