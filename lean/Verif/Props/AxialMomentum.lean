import Verif.Props.Dipole

/-!
# C162: angular momentum in runs
-/

namespace Barotropic
open Grid BModel

variable {N : ℕ → ℕ → ℝ} {g : Grid ℝ} {S : g.Sph} {M : BModel g} {τ : Type}

theorem applyDiffusion_apply (dt : ℝ) (q : g.Spc) (k : Fin (nspec g.ntrunc)) :
    M.applyDiffusion S dt q k - M.background S k = (q k - M.background S k) / ((1 + dt * M.diffusionCoeff * g.eig k ^ M.diffusionOrder : ℝ) : ℂ) := by
  unfold BModel.applyDiffusion BModel.background
  cases M.diffusionBg with
  | none => simp [solveDiffusionSpectral]
  | some b => simp [solveDiffusionSpectral, Grid.toSpectral]

theorem time_sub_of_add {t u : PyTime} {d : PyDelta} (h : t.add d = .ok u) : u.sub t = .ok d := by
  cases t <;> cases d <;> simp [PyTime.add] at h <;> subst h <;> simp [PyTime.sub]

/-- C162: in a run of any length and with any time step, the coefficient of PV with `m = 0`, `n = 1` moves towards the background of diffusion only, without overshooting, if
the forcing has no such coefficient; without diffusion it is constant. -/
theorem C162_axial (hg : g.Valid) (h : Spharm.Dealiased N S) (h1 : 1 ≤ g.ntrunc) (hT : 2 * g.ntrunc + 1 ≤ g.nlat) (hν : 0 ≤ M.diffusionCoeff)
    {k : Fin (nspec g.ntrunc)} (hn : specN k = 1) (hm : specM k = 0) (hf : ∀ f, M.rhs = some f → ∀ s r, f s = .ok r → Grid.toSpectral S r k = 0)
    {s : St PyTime g} {dt : PyDelta} (hdt : 0 ≤ toSeconds dt) {tend : PyTime} {se : ℝ} {sf : St PyTime g} {saved : List (St PyTime g)} (hr : M.Returns S s dt tend se sf saved) :
    ∀ x ∈ sf :: saved, ∃ θ : ℝ, 0 ≤ θ ∧ θ ≤ 1 ∧ (M.diffusionCoeff = 0 → θ = 1) ∧ x.q k - M.background S k = θ * (s.q k - M.background S k) := by
  have ht : ∀ a t, M.tendency S a = .ok t → t k = 0 := by
    intro a t ha
    unfold BModel.tendency at ha
    have hflux : a.pvFluxSpectral S k = 0 := by
      rw [C159_dipole hg h h1 hT a hn, hm]
      simp
    cases hr : M.rhs with
    | none =>
      rw [hr] at ha
      cases ha
      simp [hflux]
    | some f =>
      rw [hr] at ha
      dsimp only at ha
      cases hfa : f a with
      | error e => rw [hfa] at ha; cases ha
      | ok r =>
        rw [hfa] at ha; cases ha
        simp [hflux, hf f hr a r hfa]
  obtain ⟨b, hb⟩ : ∃ b, b = M.background S k := ⟨_, rfl⟩
  have he : 0 ≤ g.eig k := eig_nonneg k
  -- diffusion over a non-negative time is a multiplication of the deviation
  have hdiff : ∀ (τ : ℝ) (q : g.Spc), 0 ≤ τ → ∃ c : ℝ, 0 ≤ c ∧ c ≤ 1 ∧ (M.diffusionCoeff = 0 → c = 1) ∧ M.applyDiffusion S τ q k - b = c * (q k - b) := fun τ q hτ => by
    have h0 : 0 ≤ τ * M.diffusionCoeff * g.eig k ^ M.diffusionOrder := by positivity
    refine ⟨1 / (1 + τ * M.diffusionCoeff * g.eig k ^ M.diffusionOrder), by positivity, by rw [div_le_one (by linarith)]; linarith, fun e => by rw [e]; simp, ?_⟩
    rw [hb, applyDiffusion_apply]
    push_cast
    ring
  let Q : St PyTime g → Prop := fun x => ∃ θ : ℝ, 0 ≤ θ ∧ θ ≤ 1 ∧ (M.diffusionCoeff = 0 → θ = 1) ∧ x.q k - b = θ * (s.q k - b)
  obtain ⟨⟨c, h2⟩, h3⟩ := run_invariant (fun x y => Q x ∧ Q y ∧ ∃ d, y.time.sub x.time = .ok d ∧ 0 ≤ toSeconds d)
    (by
      intro s1 hE
      obtain ⟨tn, t, htn, hadd, rfl⟩ := euler_ok_iff.mp hE
      refine ⟨⟨1, zero_le_one, le_rfl, fun _ => rfl, by simp⟩, ?_, dt, time_sub_of_add hadd, hdt⟩
      obtain ⟨c, c0, c1, c2, c3⟩ := hdiff (toSeconds dt) (s.q + ((toSeconds dt : ℝ) : ℂ) • tn) hdt
      refine ⟨c, c0, c1, c2, ?_⟩
      dsimp only
      rw [c3]
      simp [ht _ _ htn])
    (by
      rintro x y p ⟨⟨θ, t0, t1, t2, t3⟩, ⟨θ', u0, u1, u2, u3⟩, d, hd, hd0⟩ hp
      obtain ⟨d', tn, t, hd', htn, hadd, rfl⟩ := leapfrog_ok_iff.mp hp
      obtain rfl : d' = d := Except.ok.inj (hd'.symm.trans hd)
      obtain ⟨c, c0, c1, c2, c3⟩ := hdiff (2 * toSeconds d') (x.q + ((2 * toSeconds d' : ℝ) : ℂ) • tn) (by linarith)
      have e : M.applyDiffusion S (2 * toSeconds d') (x.q + ((2 * toSeconds d' : ℝ) : ℂ) • tn) k - b = ((c * θ : ℝ) : ℂ) * (s.q k - b) := by
        rw [c3]
        simp only [Pi.add_apply, Pi.smul_apply, ht _ _ htn, smul_zero, add_zero, t3]
        push_cast
        ring
      have cθ0 : 0 ≤ c * θ := mul_nonneg c0 t0
      have cθ1 : c * θ ≤ 1 := mul_le_one₀ c1 t0 t1
      refine ⟨⟨(1 - 2 * (2 / 10)) * θ' + 2 / 10 * (θ + c * θ), by nlinarith, by nlinarith, fun hh => by rw [c2 hh, t2 hh, u2 hh]; norm_num, ?_⟩,
        ⟨c * θ, cθ0, cθ1, fun hh => by rw [c2 hh, t2 hh, one_mul], e⟩, d', time_sub_of_add hadd, hd0⟩
      dsimp only
      rw [Pi.add_apply, Pi.smul_apply, Pi.smul_apply, Pi.add_apply]
      obtain ⟨z, hz⟩ : ∃ z, z = M.applyDiffusion S (2 * toSeconds d') (x.q + ((2 * toSeconds d' : ℝ) : ℂ) • tn) k := ⟨_, rfl⟩
      rw [← hz] at e ⊢
      rw [smul_eq_mul, smul_eq_mul]
      push_cast at e ⊢
      linear_combination (1 - 2 * (2 / 10 : ℂ)) * u3 + (2 / 10 : ℂ) * t3 + (2 / 10 : ℂ) * e) hr
  rw [← hb]
  intro x hx
  rcases List.mem_cons.1 hx with rfl | hx
  · exact h2.1
  · exact (h3 x hx).choose_spec.1

theorem sec_of_add {t u : PyTime} {d : PyDelta} (h : t.add d = .ok u) : u.sec = t.sec + toSeconds d := by
  cases t <;> cases d <;> simp [PyTime.add] at h <;> subst h <;> simp [PyTime.sec, toSeconds]
  ring

theorem sec_of_sub {t u : PyTime} {d : PyDelta} (h : u.sub t = .ok d) : u.sec = t.sec + toSeconds d := by
  cases t <;> cases u <;> simp [PyTime.sub] at h <;> subst h <;> simp [PyTime.sec, toSeconds]
  ring

/-- C162: if the coefficient of the forcing is a constant `c`, the coefficient of PV grows with exactly this rate, whatever the time step and the flow are. -/
theorem C162_torque (hg : g.Valid) (h : Spharm.Dealiased N S) (h1 : 1 ≤ g.ntrunc) (hT : 2 * g.ntrunc + 1 ≤ g.nlat) (hν : M.diffusionCoeff = 0)
    {k : Fin (nspec g.ntrunc)} (hn : specN k = 1) (hm : specM k = 0) {f : St PyTime g → Except PyErr g.Fld} (hM : M.rhs = some f) {c : ℂ}
    (hf : ∀ s r, f s = .ok r → Grid.toSpectral S r k = c)
    {s : St PyTime g} {dt : PyDelta} {tend : PyTime} {se : ℝ} {sf : St PyTime g} {saved : List (St PyTime g)} (hr : M.Returns S s dt tend se sf saved) :
    ∀ x ∈ sf :: saved, x.q k = s.q k + ((x.time.sec - s.time.sec : ℝ) : ℂ) * c := by
  have ht : ∀ a t, M.tendency S a = .ok t → t k = c := by
    intro a t ha
    unfold BModel.tendency at ha
    have hflux : a.pvFluxSpectral S k = 0 := by
      rw [C159_dipole hg h h1 hT a hn, hm]
      simp
    rw [hM] at ha
    dsimp only at ha
    cases hfa : f a with
    | error e => rw [hfa] at ha; cases ha
    | ok r =>
      rw [hfa] at ha; cases ha
      simp [hflux, hf a r hfa]
  have hdiff : ∀ (τ : ℝ) (q : g.Spc), M.applyDiffusion S τ q k = q k := fun τ q => by
    have e := applyDiffusion_apply (M := M) (S := S) τ q k
    rw [hν] at e
    simpa using e
  let Q : St PyTime g → Prop := fun x => x.q k = s.q k + ((x.time.sec - s.time.sec : ℝ) : ℂ) * c
  obtain ⟨⟨b, h2⟩, h3⟩ := run_invariant (fun x y => Q x ∧ Q y)
    (by
      intro s1 hE
      obtain ⟨tn, t, htn, hadd, rfl⟩ := euler_ok_iff.mp hE
      refine ⟨by simp [Q], ?_⟩
      change M.applyDiffusion S _ _ k = _ + ((t.sec - _ : ℝ) : ℂ) * c
      rw [hdiff, Pi.add_apply, Pi.smul_apply, ht _ _ htn, sec_of_add hadd, add_sub_cancel_left, smul_eq_mul])
    (by
      rintro x y p ⟨hx, hy⟩ hp
      obtain ⟨d, tn, t, hd, htn, hadd, rfl⟩ := leapfrog_ok_iff.mp hp
      have e1 := sec_of_add hadd
      have e2 := sec_of_sub hd
      have hx' : x.q k = s.q k + ((x.time.sec - s.time.sec : ℝ) : ℂ) * c := hx
      have hy' : y.q k = s.q k + ((y.time.sec - s.time.sec : ℝ) : ℂ) * c := hy
      constructor
      · change (_ + _ : g.Spc) k = _ + ((y.time.sec - _ : ℝ) : ℂ) * c
        rw [Pi.add_apply, Pi.smul_apply, Pi.smul_apply, Pi.add_apply, hdiff, Pi.add_apply, Pi.smul_apply, ht _ _ htn, hx', hy', e2]
        simp only [smul_eq_mul]
        push_cast
        ring
      · change M.applyDiffusion S _ _ k = _ + ((t.sec - _ : ℝ) : ℂ) * c
        rw [hdiff, Pi.add_apply, Pi.smul_apply, ht _ _ htn, hx', e1, e2]
        simp only [smul_eq_mul]
        push_cast
        ring) hr
  intro x hx
  rcases List.mem_cons.1 hx with rfl | hx
  · exact h2.1
  · exact (h3 x hx).choose_spec.1

/-- Angular momentum is one coefficient of PV, relative to that of the planet. -/
theorem momentum_axial (hg : g.Valid) (h : Spharm.Dealiased N S) (h1 : 1 ≤ g.ntrunc) (s : St τ g) :
    totalMomentum g.rsphere (s.streamFn N S) =
      g.rsphere ^ 2 * (modeNorm g.rsphere N (k1 h1) * (1 / 2 / N 1 0)) * (s.q (k1 h1) - ((g.omega / N 1 0 : ℝ) : ℂ)).re := by
  have hr := hg.rsphere_pos.ne'
  have hN := h.exact.norm_ne
  have esin : (fun _ y => Real.sin y) = harmonicSum N (solidRotation N (1 / 2) : g.Spc) := by
    funext x y
    rw [harmonicSum_solid hN h1]
    ring
  rw [streamFn_eq, totalMomentum_eq hr, esin, spherePair_dropMean hr (by intro k hk; simp [solidRotation, hk]), vorticity_shift h h1, parseval hr,
    Finset.sum_eq_single (k1 h1) (fun j _ hj => by
      have : (solidRotation N (1 / 2) : g.Spc) j = 0 := if_neg fun hh => hj (specIndex_inj (by rw [hh.1]; simp) (by rw [hh.2]; simp))
      rw [this, modeDot_zero, mul_zero]) (by simp)]
  have e : ∀ W : ℝ, (solidRotation N W : g.Spc) (k1 h1) = ((W / N 1 0 : ℝ) : ℂ) := fun W => if_pos ⟨by simp, by simp⟩
  rw [Pi.sub_apply, e, e]
  have e0 : ∀ (a : ℝ) (b : ℂ), modeDot 0 (a : ℂ) b = a * b.re := fun a b => by simp [modeDot]
  rw [specM_k1, e0]
  ring

/-- C162: the angular momentum of all states returned by a run without torque is that of the initial state without diffusion, and the same multiplied by a number between 0
and 1 with diffusion that acts on relative vorticity, for every time step. -/
theorem C162_momentum (hg : g.Valid) (h : Spharm.Dealiased N S) (h1 : 1 ≤ g.ntrunc) (hT : 2 * g.ntrunc + 1 ≤ g.nlat) (hν : 0 ≤ M.diffusionCoeff)
    (hf : ∀ f, M.rhs = some f → ∀ s r, f s = .ok r → Grid.toSpectral S r (k1 h1) = 0)
    {s : St PyTime g} {dt : PyDelta} (hdt : 0 ≤ toSeconds dt) {tend : PyTime} {se : ℝ} {sf : St PyTime g} {saved : List (St PyTime g)} (hr : M.Returns S s dt tend se sf saved) :
    (M.diffusionCoeff = 0 → ∀ x ∈ sf :: saved, totalMomentum g.rsphere (x.streamFn N S) = totalMomentum g.rsphere (s.streamFn N S)) ∧
    (M.diffusionBg = some g.fcor2 → ∀ x ∈ sf :: saved, ∃ θ : ℝ, 0 ≤ θ ∧ θ ≤ 1 ∧ totalMomentum g.rsphere (x.streamFn N S) = θ * totalMomentum g.rsphere (s.streamFn N S)) := by
  have key := C162_axial hg h h1 hT hν (specN_k1 h1) (specM_k1 h1) hf hdt hr
  refine ⟨fun h0 x hx => ?_, fun hb x hx => ?_⟩
  · obtain ⟨θ, -, -, e, e2⟩ := key x hx
    rw [e h0, Complex.ofReal_one, one_mul] at e2
    rw [momentum_axial hg h h1, momentum_axial hg h h1, sub_left_injective e2]
  · obtain ⟨θ, t0, t1, -, e2⟩ := key x hx
    have hB : M.background S (k1 h1) = ((g.omega / N 1 0 : ℝ) : ℂ) := by
      unfold BModel.background
      rw [hb]
      have e : S.grdtospec g.fcor2 = solidRotation N g.omega := h.exact.fcor2 h1 h1
      change S.grdtospec g.fcor2 _ = _
      rw [e]
      exact if_pos ⟨by simp, by simp⟩
    refine ⟨θ, t0, t1, ?_⟩
    rw [momentum_axial hg h h1, momentum_axial hg h h1, ← hB, e2, Complex.re_ofReal_mul]
    ring

/-- Transforms and runs as required exist. -/
theorem C162_instances (hg : g.Valid) (hT : 2 * g.ntrunc + 2 ≤ g.nlat) (s : St PyTime g) (hs : ∃ t, s.time = .num t) : ∃ S : g.Sph, Spharm.Dealiased (fun _ _ => 1) S ∧
    ∃ sf saved, (⟨none, 2, 1, some g.fcor2⟩ : BModel g).Returns S s (.num 1) (.num (s.time.sec + 3)) 1 sf saved := by
  obtain ⟨⟨S, h⟩, -⟩ := C119_exists (N := fun _ _ => 1) hg hT (fun _ _ => one_ne_zero)
  obtain ⟨t, ht⟩ := hs
  obtain ⟨sf, saved, e⟩ := C42_returns (S := S) (M := (⟨none, 2, 1, some g.fcor2⟩ : BModel g)) (fun f hf => by cases hf) s (.num 1) (.num (s.time.sec + 3)) 1
    (by rw [ht]; trivial) (by rw [ht]; trivial) (by norm_num [toSeconds]) (.inr ⟨t, ht⟩) (by rw [ht]; norm_num [PyTime.sec])
  exact ⟨S, h, sf, saved, e⟩

example (q : grid30.Spc) := C162_instances grid30_valid (by rw [grid30_nlat]; change 2 * 2 + 2 ≤ 7; norm_num) ⟨.num 0, q⟩ ⟨0, rfl⟩

end Barotropic
