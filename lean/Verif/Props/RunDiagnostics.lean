import Verif.Spec.RunDiagnostics
import Verif.Lemmas.RunDiagnostics

/-!
# Convergence of zonalized PV, wave activity and zonal-mean wind of runs: C131
-/

namespace Barotropic
open Real (cos sin)
open Set

variable {r Ω ν W t0 t1 t2 : ℝ} {order : ℕ} {Ψ : ℝ → ℝ → ℝ → ℝ}

/-- PV and gradient of PV of a state are within `η` of those of the solution. -/
structure Near (r Ω t0 t1 : ℝ) (Ψ : ℝ → ℝ → ℝ → ℝ) (N : ℕ → ℕ → ℝ) (η : ℝ) {g : Grid ℝ} (w : St PyTime g) : Prop where
  time : w.time.sec ∈ Icc t0 t1
  value : ∀ x y, cos y ≠ 0 → |w.pvFn N x y - absVort r Ω (Ψ w.time.sec) x y| ≤ η
  grad : ∀ x y, cos y ≠ 0 → |(sphereGrad r (w.pvFn N) x y).1 - (sphereGrad r (absVort r Ω (Ψ w.time.sec)) x y).1| ≤ η ∧
    |(sphereGrad r (w.pvFn N) x y).2 - (sphereGrad r (absVort r Ω (Ψ w.time.sec)) x y).2| ≤ η

/-- `Q` holds for states that are sufficiently close to the solution, if the truncation is sufficiently high. -/
def NearImplies (r Ω t0 t1 : ℝ) (Ψ : ℝ → ℝ → ℝ → ℝ) (Q : (g : Grid ℝ) → g.Sph → St PyTime g → Prop) : Prop :=
  ∃ η > 0, ∃ T1 : ℕ, ∀ (g : Grid ℝ) (N : ℕ → ℕ → ℝ) (S : g.Sph), g.Valid → g.rsphere = r → g.omega = Ω → g.resolution * g.nlon = 360 → 1 ≤ g.ntrunc →
    T1 ≤ g.ntrunc → 2 * g.ntrunc + 1 ≤ g.nlat → Spharm.Dealiased N S → ∀ w : St PyTime g, Near r Ω t0 t1 Ψ N η w → Q g S w

theorem NearImplies.and {Q Q' : (g : Grid ℝ) → g.Sph → St PyTime g → Prop} (h : NearImplies r Ω t0 t1 Ψ Q) (h' : NearImplies r Ω t0 t1 Ψ Q') :
    NearImplies r Ω t0 t1 Ψ fun g S w => Q g S w ∧ Q' g S w := by
  obtain ⟨η, hη, T1, h⟩ := h
  obtain ⟨η', hη', T1', h'⟩ := h'
  refine ⟨min η η', lt_min hη hη', max T1 T1', fun g N S a1 a2 a3 a4 a5 a6 a7 a8 w hw => ⟨?_, ?_⟩⟩
  · exact h g N S a1 a2 a3 a4 a5 ((le_max_left _ _).trans a6) a7 a8 w ⟨hw.time, fun x y hy => (hw.value x y hy).trans (min_le_left _ _),
      fun x y hy => ⟨(hw.grad x y hy).1.trans (min_le_left _ _), (hw.grad x y hy).2.trans (min_le_left _ _)⟩⟩
  · exact h' g N S a1 a2 a3 a4 a5 ((le_max_right _ _).trans a6) a7 a8 w ⟨hw.time, fun x y hy => (hw.value x y hy).trans (min_le_right _ _),
      fun x y hy => ⟨(hw.grad x y hy).1.trans (min_le_right _ _), (hw.grad x y hy).2.trans (min_le_right _ _)⟩⟩

/-- Runs satisfy what follows from being close to the solution. -/
theorem NearImplies.runs {Q : (g : Grid ℝ) → g.Sph → St PyTime g → Prop} (h : NearImplies r Ω t0 t1 Ψ Q) (hr : 0 < r) (hν : 0 ≤ ν)
    (hΨ : SmoothSolution r Ω ν order W t0 t1 Ψ) (h02 : t0 ≤ t2) (h21 : t2 < t1) {Pr : (g : Grid ℝ) → g.Sph → List (St PyTime g) → Prop}
    (hPr : ∀ (g : Grid ℝ) (S : g.Sph) (l : List (St PyTime g)), g.Valid → g.rsphere = r → (∀ w ∈ l, w.time.sec ∈ Icc t0 t1 ∧ Q g S w) → Pr g S l) :
    RunsSatisfy r Ω ν order W t0 t2 Ψ Pr := by
  obtain ⟨η, hη, T1, h⟩ := h
  obtain ⟨T0, ε, hε, key⟩ := C130_uniform hr hν hΨ h02 h21 hη
  refine ⟨max (max T0 T1) 1, ε, hε, fun g N S M a1 a2 a3 a4 a5 a6 a7 a8 a9 a10 a11 => ?_⟩
  have b0 : T0 ≤ g.ntrunc := (le_max_left _ _).trans ((le_max_left _ _).trans a5)
  have b1 : T1 ≤ g.ntrunc := (le_max_right _ _).trans ((le_max_left _ _).trans a5)
  have b2 : 1 ≤ g.ntrunc := (le_max_right _ _).trans a5
  obtain ⟨k1, k2⟩ := key (M := M) a1 a2 a3 b0 a6 a7 a8 a9 a10 a11
  refine ⟨k1, fun s hs hs0 => ?_⟩
  obtain ⟨δ, hδ, hd⟩ := k2 s hs hs0
  refine ⟨δ, hδ, fun dt tend se c1 c2 c3 c4 c5 c6 c7 => ?_⟩
  obtain ⟨sf, saved, d1, d2, d3⟩ := hd dt tend se c1 c2 c3 c4 c5 c6 c7
  exact ⟨sf, saved, d1, d2, hPr g S _ a1 a2 fun w hw => ⟨(d3 w hw).1, h g N S a1 a2 a3 a4 b2 b1 a6 a7 w ⟨(d3 w hw).1, fun x y hy => ((d3 w hw).2 x y hy).1.le,
    fun x y hy => ⟨((d3 w hw).2 x y hy).2.1.le, ((d3 w hw).2 x y hy).2.2.le⟩⟩⟩⟩

section
variable {F : (Fin 4 → ℝ) → ℝ} (hF : ContDiff ℝ (⊤ : ℕ∞) F)
include hF

theorem exact_lipschitz (hr : 0 < r) {G : ℝ} (hG0 : 0 ≤ G) {t : ℝ} (hG : ∀ x y, cos y ≠ 0 →
    |(sphereGrad r (onSphere (vort r Ω F) t) x y).1| ≤ G ∧ |(sphereGrad r (onSphere (vort r Ω F) t) x y).2| ≤ G) :
    LipschitzField (onSphere (vort r Ω F) t) (r * (G + 1)) (r * (G + 1)) :=
  lipschitz_of_grad hr (onSphere_smooth (vort_smooth r Ω hF) t) fun x y hy => ⟨(hG x y hy).1.trans (by linarith), (hG x y hy).2.trans (by linarith)⟩

/-- Properties of states that are close to the solution -/
theorem Near.facts (hr : 0 < r) (hΨF : ∀ t, Ψ t = onSphere F t) {G η : ℝ} (hG : ∀ t ∈ Icc t0 t1, ∀ x y, cos y ≠ 0 →
    |(sphereGrad r (onSphere (vort r Ω F) t) x y).1| ≤ G ∧ |(sphereGrad r (onSphere (vort r Ω F) t) x y).2| ≤ G) (hη : η ≤ 1)
    {g : Grid ℝ} {N : ℕ → ℕ → ℝ} {w : St PyTime g} (h : Near r Ω t0 t1 Ψ N η w) :
    LipschitzField (w.pvFn N) (r * (G + 1)) (r * (G + 1)) ∧ ∀ x y, cos y ≠ 0 → |w.pvFn N x y - onSphere (vort r Ω F) w.time.sec x y| ≤ η := by
  have hA : ∀ x y, cos y ≠ 0 → absVort r Ω (Ψ w.time.sec) x y = onSphere (vort r Ω F) w.time.sec x y := fun x y hy => by
    rw [hΨF]; exact absVort_onSphere hF r Ω _ x hy
  have hs : SphereSmooth (w.pvFn N) := harmonicSum_smooth _
  refine ⟨lipschitz_of_grad hr hs fun x y hy => ?_, fun x y hy => by rw [← hA x y hy]; exact h.value x y hy⟩
  have h1 := h.grad x y hy
  rw [sphereGrad_congr r x hy hA] at h1
  have h2 := hG _ h.time x y hy
  obtain ⟨⟨a1, a2⟩, a3, a4⟩ := And.intro (abs_le.1 h1.1) (abs_le.1 h1.2)
  obtain ⟨⟨b1, b2⟩, b3, b4⟩ := And.intro (abs_le.1 h2.1) (abs_le.1 h2.2)
  exact ⟨abs_le.2 ⟨by linarith, by linarith⟩, abs_le.2 ⟨by linarith, by linarith⟩⟩

end

theorem resolution_le {g : Grid ℝ} (hg : g.Valid) (h1 : 1 ≤ g.ntrunc) (hT : 2 * g.ntrunc + 1 ≤ g.nlat) : g.resolution ≤ 90 / g.ntrunc := by
  have hp : (0 : ℝ) < g.ntrunc := by exact_mod_cast h1
  have h2 : 2 * g.ntrunc ≤ ⌊(180 : ℝ) / g.resolution⌋₊ := by
    unfold Grid.nlat Grid.nlatOf at hT
    omega
  have h3 : ((2 * g.ntrunc : ℕ) : ℝ) ≤ 180 / g.resolution := (Nat.cast_le.2 h2).trans (Nat.floor_le (by have := hg.res_pos; positivity))
  rw [le_div_iff₀ hg.res_pos] at h3
  rw [le_div_iff₀ hp]
  push_cast at h3
  linarith

theorem exists_trunc {δ : ℝ} (hδ : 0 < δ) : ∃ T1 : ℕ, ∀ g : Grid ℝ, g.Valid → 1 ≤ g.ntrunc → T1 ≤ g.ntrunc → 2 * g.ntrunc + 1 ≤ g.nlat → g.resolution ≤ δ := by
  obtain ⟨T1, hT1⟩ := exists_nat_gt (90 / δ)
  refine ⟨T1, fun g hg h1 h2 hT => (resolution_le hg h1 hT).trans ?_⟩
  have hp : (0 : ℝ) < g.ntrunc := by exact_mod_cast h1
  have h3 : (T1 : ℝ) ≤ g.ntrunc := by exact_mod_cast h2
  rw [div_lt_iff₀ hδ] at hT1
  rw [div_le_iff₀ hp]
  nlinarith

/-- The gridded PV of a state has the values of the function `pvFn`. -/
theorem state_pv {g : Grid ℝ} {S : g.Sph} {N : ℕ → ℕ → ℝ} (h : Spharm.Dealiased N S) (w : St PyTime g) :
    w.pv S = fun (j : Fin g.nlat) (i : Fin g.nlon) => w.pvFn N (g.lam i) (g.phi j) := h.exact.synthesis w.q

/-- C131: rearrangement into a profile does not increase the maximum of differences. -/
theorem C131_rearrangement (A B : ℝ → ℝ → ℝ) (PA PB : ℝ → ℝ) (η : ℝ) (Lx Ly Lx' Ly' : ℝ) (hA : LipschitzField A Lx Ly) (hB : LipschitzField B Lx' Ly')
    (hPA : IsRearrangement A PA) (hPB : IsRearrangement B PB) (h : ∀ x, ∀ φ ∈ latitudes, |A x φ - B x φ| ≤ η) : ∀ φ ∈ latitudes, |PA φ - PB φ| ≤ η :=
  rearr_contract hA.cont hB.cont hPA hPB fun x φ hφ _ => h x φ hφ

/-- C131: the absolute vorticity of a smooth solution can be rearranged into a profile at all times. -/
theorem C131_background (hr : 0 < r) (hΨ : SmoothSolution r Ω ν order W t0 t1 Ψ) (t : ℝ) : ∃ P, IsRearrangement (absVort r Ω (Ψ t)) P := by
  obtain ⟨F, hF, hΨF⟩ := hΨ.smooth
  have hon : Ψ t = onSphere F t := by funext x y; exact hΨF t x y
  obtain ⟨Lx, Ly, hL⟩ := (onSphere_smooth (vort_smooth r Ω hF) t).lipschitz
  obtain ⟨P, hP⟩ := C115_exists _ _ _ hL
  exact ⟨P, hP.congr fun x φ hφ => by rw [hon]; exact (absVort_onSphere hF r Ω t x hφ).symm⟩

theorem near_zonalize (hr : 0 < r) (hΨ : SmoothSolution r Ω ν order W t0 t1 Ψ) {η : ℝ} (hη : 0 < η) : NearImplies r Ω t0 t1 Ψ fun g S w =>
    ∀ P, IsRearrangement (absVort r Ω (Ψ w.time.sec)) P → ∀ m, KnownMethod m →
      ∃ R, g.zonalize (w.pv S) .none m = .ok R ∧ (m = "sptrapz" → w.pvZonalized S = .ok R) ∧ ∀ j, |R j - P (g.phi j)| ≤ η := by
  obtain ⟨F, hF, hΨF⟩ := hΨ.smooth
  have hon : ∀ t, Ψ t = onSphere F t := fun t => by funext x y; exact hΨF t x y
  obtain ⟨G, hG0, hG⟩ := vort_grad_bound hr Ω hF t0 t1
  obtain ⟨C, hC, hz⟩ := C115_uniform (r * (G + 1)) (r * (G + 1))
  obtain ⟨T1, hT1⟩ := exists_trunc (δ := η / (2 * (C + 1))) (by positivity)
  refine ⟨min 1 (η / 2), lt_min one_pos (half_pos hη), T1, fun g N S hg hgr hgo hs h1 h1T hT h w hw P hP m hm => ?_⟩
  obtain ⟨hL, hclose⟩ := hw.facts hF hr hon hG (min_le_left _ _)
  obtain ⟨PQ, hPQ⟩ := C115_exists _ _ _ hL
  obtain ⟨R, e, hR⟩ := hz _ hL PQ hPQ g hg hs m hm
  have hP' : IsRearrangement (onSphere (vort r Ω F) w.time.sec) P := hP.congr fun x φ hφ => by rw [hon]; exact absVort_onSphere hF r Ω _ x hφ
  have hPP := rearr_close hL.cont (exact_lipschitz hF hr hG0 (hG _ hw.time)).cont hPQ hP' hclose
  rw [← state_pv h] at e
  refine ⟨R, e, fun hmm => by rw [hmm] at e; exact e, fun j => ?_⟩
  have b1 := hR j
  have b2 := hPP _ (Grid.phi_mem hg j.2)
  have b3 : C * g.resolution ≤ η / 2 := by
    have c1 := mul_le_mul_of_nonneg_left (hT1 g hg h1 h1T hT) hC
    have c2 : C * (η / (2 * (C + 1))) ≤ η / 2 := by
      rw [mul_div_assoc', div_le_div_iff₀ (by positivity) (by norm_num)]
      nlinarith
    linarith
  have b4 := b2.trans (min_le_right _ _)
  calc |R j - P (g.phi j)| = |(R j - PQ (g.phi j)) + (PQ (g.phi j) - P (g.phi j))| := by congr 1; ring
    _ ≤ |R j - PQ (g.phi j)| + |PQ (g.phi j) - P (g.phi j)| := abs_add_le _ _
    _ ≤ η := by linarith

/-- C131: the zonalized PV of runs converges to the PV of the solution, rearranged into a profile. -/
theorem C131_zonalize (hr : 0 < r) (hν : 0 ≤ ν) (hΨ : SmoothSolution r Ω ν order W t0 t1 Ψ) (h02 : t0 ≤ t2) (h21 : t2 < t1) {η : ℝ} (hη : 0 < η) :
    RunsSatisfy r Ω ν order W t0 t2 Ψ fun g S l => ∀ w ∈ l, ∀ P, IsRearrangement (absVort r Ω (Ψ w.time.sec)) P → ∀ m, KnownMethod m →
      ∃ R, g.zonalize (w.pv S) .none m = .ok R ∧ (m = "sptrapz" → w.pvZonalized S = .ok R) ∧ ∀ j, |R j - P (g.phi j)| ≤ η :=
  (near_zonalize hr hΨ hη).runs hr hν hΨ h02 h21 fun _ _ _ _ _ h w hw => (h w hw).2

/-- C131: without diffusion, the PV of a smooth solution is rearranged into the same profile at all times, and wave activity and zonal-mean zonal wind change
by opposite amounts. -/
theorem C131_solution (hr : 0 < r) (hΨ : SmoothSolution r Ω 0 order W t0 t1 Ψ) {t t' : ℝ} (ht : t ∈ Icc t0 t1) (ht' : t' ∈ Icc t0 t1) {P : ℝ → ℝ}
    (hP : IsRearrangement (absVort r Ω (Ψ t)) P) : IsRearrangement (absVort r Ω (Ψ t')) P ∧ ∀ φ, |φ| < Real.pi / 2 →
      waveActivity r (absVort r Ω (Ψ t)) P φ + zonalMeanFn (fun x y => -(sphereGrad r (Ψ t) x y).2) φ =
        waveActivity r (absVort r Ω (Ψ t')) P φ + zonalMeanFn (fun x y => -(sphereGrad r (Ψ t') x y).2) φ := by
  obtain ⟨F, hF, hΨF⟩ := hΨ.smooth
  have hon : ∀ t, Ψ t = onSphere F t := fun t => by funext x y; exact hΨF t x y
  have hA : ∀ t x y, cos y ≠ 0 → absVort r Ω (Ψ t) x y = onSphere (vort r Ω F) t x y := fun t x y hy => by
    rw [hon]; exact absVort_onSphere hF r Ω _ x hy
  obtain ⟨θ, U, V, hθ, hflow⟩ := vort_transport hr.ne' hΨ (ht.1.trans ht.2) hF hΨF
  obtain ⟨s, rfl⟩ := hθ t ht
  obtain ⟨s', rfl⟩ := hθ t' ht'
  refine ⟨(C117_background r _ U V hflow hr.ne' P s s' (hP.congr (hA _))).congr fun x y hy => (hA _ x y hy).symm, fun φ hφ => ?_⟩
  obtain ⟨f1, f2⟩ := abs_lt.1 hφ
  have hc : cos φ ≠ 0 := (Real.cos_pos_of_mem_Ioo ⟨f1, f2⟩).ne'
  have hm : ∀ t, zonalMeanFn (fun x y => -(sphereGrad r (Ψ t) x y).2) φ = zonalMeanFn (fun x y => -(north F t x y / r)) φ := by
    intro t
    unfold zonalMeanFn
    simp only [hon, sphereGrad_onSphere hF r t _ hc]
  have hq : ∀ t x y, cos y ≠ 0 → onSphere (vort r Ω F) t x y =
      sphereCurl r (fun x y => -(north F t x y / r)) (fun x y => east F t x y / r) x y + 2 * Ω * sin y := by
    intro t x y hy
    rw [curl_of_grad (A := onSphere F t) r (fun x y hy => by rw [sphereGrad_onSphere hF r t x hy]; simp) x hy, ← absVort_onSphere hF r Ω t x hy]
    rfl
  have key := fun t => activity_plus_wind (onSphere_smooth (vort_smooth r Ω hF) t) ((north_smooth hF t).div_const r).neg ((east_smooth hF t).div_const r)
    (f := fun y => 2 * Ω * sin y) (by fun_prop) (hq t) hr P f1 f2
  rw [hm, hm, waveActivity_congr (hA _), waveActivity_congr (hA _), key, key, hflow.excess_const hr.ne' (P φ) s s']

/-- C131: without diffusion, the zonalized PV of a run is the same at all times within any tolerance. -/
theorem C131_conserved (hr : 0 < r) (hΨ : SmoothSolution r Ω 0 order W t0 t1 Ψ) (h02 : t0 ≤ t2) (h21 : t2 < t1) {η : ℝ} (hη : 0 < η) :
    RunsSatisfy r Ω 0 order W t0 t2 Ψ fun g S l => ∀ w ∈ l, ∀ w' ∈ l, ∀ m, KnownMethod m →
      ∃ R R', g.zonalize (w.pv S) .none m = .ok R ∧ g.zonalize (w'.pv S) .none m = .ok R' ∧ ∀ j, |R j - R' j| ≤ η := by
  obtain ⟨P, hP⟩ := C131_background hr hΨ t0
  have h0 : t0 ∈ Icc t0 t1 := ⟨le_rfl, h02.trans h21.le⟩
  refine (near_zonalize hr hΨ (half_pos hη)).runs hr le_rfl hΨ h02 h21 fun g S l _ _ h w hw w' hw' m hm => ?_
  obtain ⟨R, e, -, hR⟩ := (h w hw).2 P (C131_solution hr hΨ h0 (h w hw).1 hP).1 m hm
  obtain ⟨R', e', -, hR'⟩ := (h w' hw').2 P (C131_solution hr hΨ h0 (h w' hw').1 hP).1 m hm
  refine ⟨R, R', e, e', fun j => ?_⟩
  have a1 := abs_le.1 (hR j)
  have a2 := abs_le.1 (hR' j)
  exact abs_le.2 ⟨by linarith [a1.1, a2.2], by linarith [a1.2, a2.1]⟩

/-! ## Wave activity -/

/-- Accuracy of FAWA for all fields close to those of a continuous family -/
theorem fawa_family (hr : 0 < r) {F : (Fin 4 → ℝ) → ℝ} (hF : ContDiff ℝ (⊤ : ℕ∞) F) {P : ℝ → ℝ → ℝ}
    (hP : ∀ t ∈ Icc t0 t1, IsRearrangement (onSphere (vort r Ω F) t) (P t)) {L φ0 ε : ℝ} (hL : 0 ≤ L) (h0 : 0 ≤ φ0) (h1 : φ0 < Real.pi / 2) (hε : 0 < ε) :
    ∃ δ > 0, ∃ η0 > 0, ∀ t ∈ Icc t0 t1, ∀ (Q : ℝ → ℝ → ℝ) (PQ : ℝ → ℝ), LipschitzField Q L L → IsRearrangement Q PQ → (∀ φ ∈ latitudes, |PQ φ - P t φ| ≤ η0) →
      ∀ g : Grid ℝ, g.Valid → g.resolution * g.nlon = 360 → g.rsphere = r → g.resolution ≤ δ → ∀ m, KnownMethod m →
      (m = "boxcount" ∨ ∀ t ∈ Icc t0 t1, StrictMonoOn (P t) latitudes) →
      ∃ A, g.fawa (fun j (i : Fin g.nlon) => Q (g.lam i) (g.phi j)) .none m = .ok A ∧
        (m = "sptrapz" → g.stateFawa (fun j (i : Fin g.nlon) => Q (g.lam i) (g.phi j)) = .ok A) ∧
        ∀ j : Fin g.nlat, |g.phi j| ≤ φ0 → ∃ v, A j = some v ∧ |v - waveActivity r Q PQ (g.phi j)| ≤ ε := by
  have key := isCompact_Icc.induction_on (s := Icc t0 t1) (p := fun s => ∃ δ > 0, ∃ η0 > 0, ∀ t ∈ s, t ∈ Icc t0 t1 → ∀ (Q : ℝ → ℝ → ℝ) (PQ : ℝ → ℝ),
      LipschitzField Q L L → IsRearrangement Q PQ → (∀ φ ∈ latitudes, |PQ φ - P t φ| ≤ η0) →
      ∀ g : Grid ℝ, g.Valid → g.resolution * g.nlon = 360 → g.rsphere = r → g.resolution ≤ δ → ∀ m, KnownMethod m →
      (m = "boxcount" ∨ ∀ t ∈ Icc t0 t1, StrictMonoOn (P t) latitudes) →
      ∃ A, g.fawa (fun j (i : Fin g.nlon) => Q (g.lam i) (g.phi j)) .none m = .ok A ∧
        (m = "sptrapz" → g.stateFawa (fun j (i : Fin g.nlon) => Q (g.lam i) (g.phi j)) = .ok A) ∧
        ∀ j : Fin g.nlat, |g.phi j| ≤ φ0 → ∃ v, A j = some v ∧ |v - waveActivity r Q PQ (g.phi j)| ≤ ε) ?_ ?_ ?_ ?_
  · obtain ⟨δ, hδ, η0, hη0, h⟩ := key
    exact ⟨δ, hδ, η0, hη0, fun t ht => h t ht ht⟩
  · exact ⟨1, one_pos, 1, one_pos, fun t ht => absurd ht (notMem_empty t)⟩
  · rintro s s' hss ⟨δ, hδ, η0, hη0, h⟩
    exact ⟨δ, hδ, η0, hη0, fun t ht => h t (hss ht)⟩
  · rintro s s' ⟨δ, hδ, η0, hη0, h⟩ ⟨δ', hδ', η0', hη0', h'⟩
    refine ⟨min δ δ', lt_min hδ hδ', min η0 η0', lt_min hη0 hη0', fun t ht htt Q PQ a1 a2 a3 g b1 b2 b3 b4 => ?_⟩
    rcases ht with ht | ht
    · exact h t ht htt Q PQ a1 a2 (fun φ hφ => (a3 φ hφ).trans (min_le_left _ _)) g b1 b2 b3 (b4.trans (min_le_left _ _))
    · exact h' t ht htt Q PQ a1 a2 (fun φ hφ => (a3 φ hφ).trans (min_le_right _ _)) g b1 b2 b3 (b4.trans (min_le_right _ _))
  · intro t ht
    obtain ⟨δ, hδ, η0, hη0, h⟩ := C116_fawa_stable L L hL hL (P t) (hP t ht).continuous r φ0 ε hr h0 h1 hε
    obtain ⟨d, hd, htime⟩ := vort_time_continuous r Ω hF t0 t1 (half_pos hη0)
    refine ⟨Metric.ball t d ∩ Icc t0 t1, Filter.inter_mem (mem_nhdsWithin_of_mem_nhds (Metric.ball_mem_nhds t hd)) self_mem_nhdsWithin, δ, hδ, η0 / 2, half_pos hη0,
      fun t' ht' htt Q PQ a1 a2 a3 g b1 b2 b3 b4 m b5 b6 => ?_⟩
    have hdist : |t' - t| < d := by have := ht'.1; rwa [Metric.mem_ball, Real.dist_eq] at this
    have hcf : ∀ t, ContField (onSphere (vort r Ω F) t) := fun t => (onSphere_smooth (vort_smooth r Ω hF) t).lipschitz.choose_spec.choose_spec.cont
    have hPP := rearr_close (hcf t') (hcf t) (hP t' htt) (hP t ht) fun x φ _ => htime t' htt t ht hdist x φ
    refine h Q PQ a1 a2 (fun φ hφ => ?_) g b1 b2 b3 b4 m b5 (b6.imp id fun h => h t ht)
    have c1 := abs_le.1 (a3 φ hφ)
    have c2 := abs_le.1 (hPP φ hφ)
    exact abs_le.2 ⟨by linarith [c1.1, c2.1], by linarith [c1.2, c2.2]⟩

theorem near_fawa (hr : 0 < r) (hΨ : SmoothSolution r Ω ν order W t0 t1 Ψ) {P : ℝ → ℝ → ℝ} (hP : ∀ t ∈ Icc t0 t1, IsRearrangement (absVort r Ω (Ψ t)) (P t))
    {φ0 ε : ℝ} (h0 : 0 ≤ φ0) (h1 : φ0 < Real.pi / 2) (hε : 0 < ε) : NearImplies r Ω t0 t1 Ψ fun g S w => ∀ m, KnownMethod m →
      (m = "boxcount" ∨ ∀ t ∈ Icc t0 t1, StrictMonoOn (P t) latitudes) →
      ∃ A, g.fawa (w.pv S) .none m = .ok A ∧ (m = "sptrapz" → g.stateFawa (w.pv S) = .ok A) ∧
        ∀ j : Fin g.nlat, |g.phi j| ≤ φ0 → ∃ v, A j = some v ∧ |v - waveActivity r (absVort r Ω (Ψ w.time.sec)) (P w.time.sec) (g.phi j)| ≤ ε := by
  obtain ⟨F, hF, hΨF⟩ := hΨ.smooth
  have hon : ∀ t, Ψ t = onSphere F t := fun t => by funext x y; exact hΨF t x y
  have hA : ∀ t x y, cos y ≠ 0 → absVort r Ω (Ψ t) x y = onSphere (vort r Ω F) t x y := fun t x y hy => by
    rw [hon]; exact absVort_onSphere hF r Ω _ x hy
  obtain ⟨G, hG0, hG⟩ := vort_grad_bound hr Ω hF t0 t1
  have hP' : ∀ t ∈ Icc t0 t1, IsRearrangement (onSphere (vort r Ω F) t) (P t) := fun t ht => (hP t ht).congr (hA t)
  obtain ⟨δ, hδ, η0, hη0, hfam⟩ := fawa_family hr hF hP' (L := r * (G + 1)) (by positivity) h0 h1 (half_pos hε)
  obtain ⟨T1, hT1⟩ := exists_trunc hδ
  have hc0 : 0 < cos φ0 := Real.cos_pos_of_mem_Ioo ⟨by linarith, h1⟩
  refine ⟨min (min 1 η0) (ε * cos φ0 / (8 * r)), lt_min (lt_min one_pos hη0) (by positivity), T1, fun g N S hg hgr hgo hs h1' h1T hT h w hw m hm hcase => ?_⟩
  obtain ⟨hL, hclose⟩ := hw.facts hF hr hon hG ((min_le_left _ _).trans (min_le_left _ _))
  obtain ⟨PQ, hPQ⟩ := C115_exists _ _ _ hL
  have hLe := exact_lipschitz hF hr hG0 (hG _ hw.time)
  have hPP := rearr_close hL.cont hLe.cont hPQ (hP' _ hw.time) hclose
  obtain ⟨A, e, e', hv⟩ := hfam _ hw.time _ PQ hL hPQ (fun φ hφ => (hPP φ hφ).trans ((min_le_left _ _).trans (min_le_right _ _))) g hg hs hgr
    (hT1 g hg h1' h1T hT) m hm hcase
  rw [← state_pv h] at e e'
  refine ⟨A, e, e', fun j hj => ?_⟩
  obtain ⟨v, hv1, hv2⟩ := hv j hj
  refine ⟨v, hv1, ?_⟩
  have hjl := abs_le.1 hj
  have hcj : cos φ0 ≤ cos (g.phi j) := by
    rw [← Real.cos_abs (g.phi j)]
    exact Real.cos_le_cos_of_nonneg_of_le_pi (abs_nonneg _) (by linarith [Real.pi_pos]) hj
  have hcj0 : 0 < cos (g.phi j) := hc0.trans_le hcj
  have b := waveActivity_close hr hL hLe hclose (hPP _ ⟨by linarith, by linarith⟩) hcj0
  rw [waveActivity_congr (hA _)]
  have b2 : r / cos (g.phi j) * (4 * min (min 1 η0) (ε * cos φ0 / (8 * r))) ≤ ε / 2 := by
    have c1 : r / cos (g.phi j) ≤ r / cos φ0 := div_le_div_of_nonneg_left hr.le hc0 hcj
    have c2 : 4 * min (min 1 η0) (ε * cos φ0 / (8 * r)) ≤ 4 * (ε * cos φ0 / (8 * r)) := by linarith [min_le_right (min 1 η0) (ε * cos φ0 / (8 * r))]
    have c3 : 0 ≤ 4 * min (min 1 η0) (ε * cos φ0 / (8 * r)) := by
      have : 0 < min (min 1 η0) (ε * cos φ0 / (8 * r)) := lt_min (lt_min one_pos hη0) (by positivity)
      linarith
    refine (mul_le_mul c1 c2 c3 (by positivity)).trans_eq ?_
    field_simp
    ring
  have d1 := abs_le.1 hv2
  have d2 := abs_le.1 (b.trans b2)
  exact abs_le.2 ⟨by linarith [d1.1, d2.1], by linarith [d1.2, d2.2]⟩

/-- C131: the finite-amplitude wave activity of runs converges to that of the solution, away from the poles. (Contours of the profile are
required to be circles of latitude, except if areas are computed by counting gridboxes.) -/
theorem C131_fawa (hr : 0 < r) (hν : 0 ≤ ν) (hΨ : SmoothSolution r Ω ν order W t0 t1 Ψ) (h02 : t0 ≤ t2) (h21 : t2 < t1) (P : ℝ → ℝ → ℝ)
    (hP : ∀ t ∈ Icc t0 t1, IsRearrangement (absVort r Ω (Ψ t)) (P t)) {φ0 ε : ℝ} (h0 : 0 ≤ φ0) (h1 : φ0 < Real.pi / 2) (hε : 0 < ε) :
    RunsSatisfy r Ω ν order W t0 t2 Ψ fun g S l => ∀ w ∈ l, ∀ m, KnownMethod m → (m = "boxcount" ∨ ∀ t ∈ Icc t0 t1, StrictMonoOn (P t) latitudes) →
      ∃ A, g.fawa (w.pv S) .none m = .ok A ∧ (m = "sptrapz" → g.stateFawa (w.pv S) = .ok A) ∧
        ∀ j : Fin g.nlat, |g.phi j| ≤ φ0 → ∃ v, A j = some v ∧ |v - waveActivity r (absVort r Ω (Ψ w.time.sec)) (P w.time.sec) (g.phi j)| ≤ ε :=
  (near_fawa hr hΨ hP h0 h1 hε).runs hr hν hΨ h02 h21 fun _ _ _ _ _ h w hw => (h w hw).2

/-! ## Zonal-mean wind -/

/-- Zonal wind of a state on the grid -/
theorem state_u {g : Grid ℝ} {S : g.Sph} {N : ℕ → ℕ → ℝ} {B : ℕ} (h : Spharm.Exact N B S) (s : St PyTime g) :
    s.u S = g.sample fun x y => -(phiDeriv N (invLaplace g.rsphere (s.vorticitySpectral S)) x y / g.rsphere) := by
  have hz : invLaplace g.rsphere (0 : g.Spc) = 0 := by funext k; simp [invLaplace, degMul]
  unfold St.u St.invertPv Grid.wind
  simp only [h.wind]
  funext j i
  simp only [Grid.sample, hz, lamDeriv_zero, add_zero]
  ring

theorem near_wind (hr : 0 < r) (hΨ : SmoothSolution r Ω ν order W t0 t1 Ψ) {φ0 ε : ℝ} (h0 : 0 ≤ φ0) (h1 : φ0 < Real.pi / 2) (hε : 0 < ε) :
    NearImplies r Ω t0 t1 Ψ fun g S w => ∀ j : Fin g.nlat, |g.phi j| ≤ φ0 →
      |gridMean (w.u S) j - zonalMeanFn (fun x y => -(sphereGrad r (Ψ w.time.sec) x y).2) (g.phi j)| ≤ ε := by
  obtain ⟨F, hF, hΨF⟩ := hΨ.smooth
  have hon : ∀ t, Ψ t = onSphere F t := fun t => by funext x y; exact hΨF t x y
  have hA : ∀ t x y, cos y ≠ 0 → absVort r Ω (Ψ t) x y = onSphere (vort r Ω F) t x y := fun t x y hy => by
    rw [hon]; exact absVort_onSphere hF r Ω _ x hy
  have hc0 : 0 < cos φ0 := Real.cos_pos_of_mem_Ioo ⟨by linarith, h1⟩
  refine ⟨ε * cos φ0 / (4 * r), by positivity, 0, fun g N S hg hgr hgo hs h1' h1T hT h w hw j hj => ?_⟩
  have hjl := abs_le.1 hj
  have hcj : cos φ0 ≤ cos (g.phi j) := by
    rw [← Real.cos_abs (g.phi j)]
    exact Real.cos_le_cos_of_nonneg_of_le_pi (abs_nonneg _) (by linarith [Real.pi_pos]) hj
  have hcj0 : 0 < cos (g.phi j) := hc0.trans_le hcj
  obtain ⟨U, V, R, hflow, ⟨mean, hmean⟩, -⟩ := dealiased_flow hg h h1' hT w
  rw [hgr] at hflow hmean
  rw [hgo] at hmean
  have hnl : g.ntrunc < g.nlon := by
    have a1 := resolution_le hg h1' hT
    have a2 : (0 : ℝ) < g.ntrunc := by exact_mod_cast h1'
    rw [le_div_iff₀ a2] at a1
    have a3 : g.resolution * g.ntrunc < g.resolution * g.nlon := by linarith
    exact_mod_cast lt_of_mul_lt_mul_left a3 hg.res_pos.le
  -- the mean over the gridpoints is the mean over the circle
  have e1 : gridMean (w.u S) j = zonalMeanFn U (g.phi j) := by
    rw [state_u h.exact w]
    unfold gridMean Grid.sample
    have e2 : ∀ x, U x (g.phi j) = -(phiDeriv N (invLaplace g.rsphere (w.vorticitySpectral S)) x (g.phi j) / g.rsphere) := by
      intro x
      have a1 := hflow.wind x _ hcj0.ne'
      have a2 := (HasGrad.harmonic (N := N) hg.rsphere_pos.ne' (invLaplace g.rsphere (w.vorticitySpectral S))).eq x _ hcj0.ne'
      rw [← streamFn_eq, hgr, a1] at a2
      have := (Prod.mk.inj a2).2
      rw [hgr]
      linarith
    have e3 := modeSum_mean hg hnl N (fun n m => deriv (legendre n m)) (invLaplace g.rsphere (w.vorticitySpectral S)) (g.phi j)
    change (∑ i : Fin g.nlon, phiDeriv N (invLaplace g.rsphere (w.vorticitySpectral S)) (g.lam i) (g.phi j)) / g.nlon =
      zonalMeanFn (phiDeriv N (invLaplace g.rsphere (w.vorticitySpectral S))) (g.phi j) at e3
    unfold zonalMeanFn at e3 ⊢
    simp only [e2]
    rw [Finset.sum_neg_distrib, ← Finset.sum_div, intervalIntegral.integral_neg, intervalIntegral.integral_div, neg_div, neg_div, div_right_comm, e3, div_right_comm]
  have hm : zonalMeanFn (fun x y => -(sphereGrad r (Ψ w.time.sec) x y).2) (g.phi j) = zonalMeanFn (fun x y => -(north F w.time.sec x y / r)) (g.phi j) := by
    unfold zonalMeanFn
    simp only [hon, sphereGrad_onSphere hF r _ _ hcj0.ne']
  have hq : ∀ x y, cos y ≠ 0 → onSphere (vort r Ω F) w.time.sec x y =
      sphereCurl r (fun x y => -(north F w.time.sec x y / r)) (fun x y => east F w.time.sec x y / r) x y + 2 * Ω * sin y := by
    intro x y hy
    rw [curl_of_grad (A := onSphere F w.time.sec) r (fun x y hy => by rw [sphereGrad_onSphere hF r _ x hy]; simp) x hy, ← absVort_onSphere hF r Ω _ x hy]
    rfl
  have hq' : ∀ x y, cos y ≠ 0 → |w.pvFn N x y - onSphere (vort r Ω F) w.time.sec x y| ≤ ε * cos φ0 / (4 * r) := fun x y hy => by
    rw [← hA _ x y hy]; exact hw.value x y hy
  have b := mean_wind_close hr hflow.sQ (onSphere_smooth (vort_smooth r Ω hF) w.time.sec) hflow.sU hflow.sV
    ((north_smooth hF w.time.sec).div_const r).neg ((east_smooth hF w.time.sec).div_const r) (f := fun y => 2 * Ω * sin y) hmean hq hq'
    (φ := g.phi j) ⟨by linarith, by linarith⟩ hcj0
  rw [e1, hm]
  refine b.trans ?_
  have c1 : r / cos (g.phi j) ≤ r / cos φ0 := div_le_div_of_nonneg_left hr.le hc0 hcj
  refine (mul_le_mul_of_nonneg_right c1 (by positivity)).trans_eq ?_
  field_simp

/-- C131: the zonal-mean zonal wind of runs converges to that of the solution, away from the poles. -/
theorem C131_wind (hr : 0 < r) (hν : 0 ≤ ν) (hΨ : SmoothSolution r Ω ν order W t0 t1 Ψ) (h02 : t0 ≤ t2) (h21 : t2 < t1) {φ0 ε : ℝ} (h0 : 0 ≤ φ0)
    (h1 : φ0 < Real.pi / 2) (hε : 0 < ε) : RunsSatisfy r Ω ν order W t0 t2 Ψ fun g S l => ∀ w ∈ l, ∀ j : Fin g.nlat, |g.phi j| ≤ φ0 →
      |gridMean (w.u S) j - zonalMeanFn (fun x y => -(sphereGrad r (Ψ w.time.sec) x y).2) (g.phi j)| ≤ ε :=
  (near_wind hr hΨ h0 h1 hε).runs hr hν hΨ h02 h21 fun _ _ _ _ _ h w hw => (h w hw).2

/-- C131: without diffusion, changes of finite-amplitude wave activity and of zonal-mean zonal wind in a run cancel within any tolerance, away from the
poles. -/
theorem C131_nonacceleration (hr : 0 < r) (hΨ : SmoothSolution r Ω 0 order W t0 t1 Ψ) (h02 : t0 ≤ t2) (h21 : t2 < t1) (P : ℝ → ℝ)
    (hP : IsRearrangement (absVort r Ω (Ψ t0)) P) {φ0 ε : ℝ} (h0 : 0 ≤ φ0) (h1 : φ0 < Real.pi / 2) (hε : 0 < ε) :
    RunsSatisfy r Ω 0 order W t0 t2 Ψ fun g S l => ∀ w ∈ l, ∀ w' ∈ l, ∀ m, KnownMethod m → (m = "boxcount" ∨ StrictMonoOn P latitudes) →
      ∃ A A', g.fawa (w.pv S) .none m = .ok A ∧ g.fawa (w'.pv S) .none m = .ok A' ∧ ∀ j : Fin g.nlat, |g.phi j| ≤ φ0 →
        ∃ v v', A j = some v ∧ A' j = some v' ∧ |(v + gridMean (w.u S) j) - (v' + gridMean (w'.u S) j)| ≤ ε := by
  have ht0 : t0 ∈ Icc t0 t1 := ⟨le_rfl, h02.trans h21.le⟩
  have h4 : 0 < ε / 4 := by linarith
  refine ((near_fawa hr hΨ (P := fun _ => P) (fun t ht => (C131_solution hr hΨ ht0 ht hP).1) h0 h1 h4).and (near_wind hr hΨ h0 h1 h4)).runs hr le_rfl hΨ h02 h21
    fun g S l _ _ h w hw w' hw' m hm hcase => ?_
  obtain ⟨A, e, -, hA⟩ := (h w hw).2.1 m hm (hcase.imp id fun h _ _ => h)
  obtain ⟨A', e', -, hA'⟩ := (h w' hw').2.1 m hm (hcase.imp id fun h _ _ => h)
  refine ⟨A, A', e, e', fun j hj => ?_⟩
  obtain ⟨v, hv, hva⟩ := hA j hj
  obtain ⟨v', hv', hva'⟩ := hA' j hj
  refine ⟨v, v', hv, hv', ?_⟩
  have key := (C131_solution hr hΨ (h w hw).1 (h w' hw').1 (C131_solution hr hΨ ht0 (h w hw).1 hP).1).2 (g.phi j) (lt_of_le_of_lt hj h1)
  have b1 := abs_le.1 hva
  have b2 := abs_le.1 hva'
  have b3 := abs_le.1 ((h w hw).2.2 j hj)
  have b4 := abs_le.1 ((h w' hw').2.2 j hj)
  exact abs_le.2 ⟨by linarith [b1.1, b2.2, b3.1, b4.2], by linarith [b1.2, b2.1, b3.2, b4.1]⟩

/-- Non-vacuity of C131: a run whose zonalized PV and sum of wave activity and zonal-mean wind change by at most 1/1000, for a wave that travels
without damping -/
example : ∃ (g : Grid ℝ) (S : g.Sph) (s : St PyTime g), g.Valid ∧ ∃ δ > 0, ∀ h > 0, h < δ →
    ∃ sf saved, (⟨none, 2, 0, some g.fcor2⟩ : BModel g).Returns S s (.num h) (.num 10) 1 sf saved ∧ 10 ≤ sf.time.sec ∧
      ∃ A A', g.fawa (s.pv S) .none "boxcount" = .ok A ∧ g.fawa (sf.pv S) .none "boxcount" = .ok A' ∧ ∀ j : Fin g.nlat, |g.phi j| ≤ 1 →
        ∃ v v', A j = some v ∧ A' j = some v' ∧ |(v + gridMean (s.u S) j) - (v' + gridMean (sf.u S) j)| ≤ 1 / 1000 := by
  obtain ⟨P, hP⟩ := C131_background one_pos (damped_wave one_ne_zero 1 0 2 0 11) 0
  obtain ⟨T0, ε, hε, key⟩ := C131_nonacceleration (t2 := 10) (φ0 := 1) (ε := 1 / 1000) one_pos (damped_wave one_ne_zero 1 0 2 0 11)
    (by norm_num) (by norm_num) P hP zero_le_one (by linarith [Real.pi_gt_three]) (by norm_num)
  obtain ⟨g, S, hg, g1, g2, g3, g4, g5, h⟩ := grids_dealiased one_pos 1 T0
  obtain ⟨⟨q, hq⟩, hrun⟩ := key g (fun _ _ => 1) S ⟨none, 2, 0, some g.fcor2⟩ hg g1 g2 g5 g3.ge g4 h rfl rfl (.inr ⟨rfl, g2.symm⟩) rfl
  obtain ⟨δ, hδ, hr⟩ := hrun ⟨.num 0, q⟩ rfl hq
  refine ⟨g, S, ⟨.num 0, q⟩, hg, δ, hδ, fun dt hd hdδ => ?_⟩
  obtain ⟨sf, saved, r1, r2, r3⟩ := hr (.num dt) (.num 10) 1 trivial trivial hd hdδ (by norm_num [PyTime.sec]) le_rfl (.inr ⟨0, rfl⟩)
  exact ⟨sf, saved, r1, r2, r3 _ List.mem_cons_self _ (List.mem_cons_of_mem _ List.mem_cons_self) "boxcount" (by simp [KnownMethod]) (.inl rfl)⟩

/-- ... and of `C131_fawa`, `C131_zonalize`, `C131_wind` with diffusion -/
example : ∃ P : ℝ → ℝ → ℝ, (∀ t ∈ Icc (0 : ℝ) 11,
      IsRearrangement (absVort 1 1 fun x y => Real.exp (-(1 / 100 * (2 / 1 ^ 2) ^ 2 * t)) * cos y * cos (x + 1 * t)) (P t)) ∧
    SmoothSolution 1 1 (1 / 100) 2 1 0 11 fun t x y => Real.exp (-(1 / 100 * (2 / 1 ^ 2) ^ 2 * t)) * cos y * cos (x + 1 * t) := by
  have h := damped_wave one_ne_zero 1 (1 / 100) 2 0 11
  choose P hP using fun t => C131_background one_pos h t
  exact ⟨P, fun t _ => hP t, h⟩

end Barotropic
