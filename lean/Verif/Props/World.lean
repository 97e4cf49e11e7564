import Verif.Lemmas.World

/-!
# C51: runs with shared objects
-/

namespace Barotropic
variable {H : RhsHeap} {hash : RhsHeap.KeyHash}

/-! Contents and what objects show -/

theorem winv_empty : WInv (fun _ => []) (World.empty H) :=
  ⟨fun _ => .nil, fun e he => by simp [World.empty] at he⟩

theorem CacheInv.shows {g : Grid ℝ} {S : g.Sph} {s : St PyTime g} {o : StateObj PyTime g} (h : CacheInv S s o)
    (p : StateProp) : (StateObj.read S p o).1 = propValue S s p := by
  obtain ⟨o', e, _⟩ := yields_read (S := S) (s := s) p o h
  rw [e]

theorem WInv.shows {σ : Contents H} {w : World H} (h : WInv σ w) {i k : ℕ} {s : St PyTime (H.grid i)}
    (hk : At σ i k s) : w.Shows i k s := by
  obtain ⟨o, ho, ih⟩ := forall₂_get (h.states i) hk
  exact ⟨o, ho, ih.shows⟩

theorem WInv.at {σ : Contents H} {w : World H} (h : WInv σ w) {i k : ℕ} {s : St PyTime (H.grid i)}
    (hk : w.Content i k s) : At σ i k s := by
  obtain ⟨o, ho, ht, hq⟩ := hk
  obtain ⟨s', hs', ih⟩ := forall₂_get' (h.states i) ho
  have h1 := ih.time
  have h2 := ih.q
  rw [hq, Option.some.injEq] at h2
  rw [ht] at h1
  have : s' = s := by
    cases s; cases s'; simp_all
  rw [← this]; exact hs'

theorem WInv.content {σ : Contents H} {w : World H} (h : WInv σ w) {i k : ℕ} {s : St PyTime (H.grid i)}
    (hk : At σ i k s) : w.Content i k s := by
  obtain ⟨o, ho, ih⟩ := forall₂_get (h.states i) hk
  exact ⟨o, ho, ih.time, ih.q⟩

theorem sim_new (σ : Contents H) (i : ℕ) (t : PyTime) (q : (H.grid i).Spc) :
    Sim σ (newState i (.ok { time := t, pvSpectral := some q })) fun _ _ => True :=
  ((Gives.lift _).bind (sim_alloc t q)).mono fun _ _ _ _ => trivial

theorem WInv.exists {σ : Contents H} {w : World H} (h : WInv σ w) {i k : ℕ} (hk : k < (w.states i).length) :
    ∃ s, At σ i k s := by
  rw [← (h.states i).length_eq] at hk
  exact ⟨_, List.getElem?_eq_getElem hk⟩

/-- Every operation keeps the invariant and the contents. -/
theorem exec_inv (hH : H.Standard) (hcol : H.NoCollision hash) (op : Op H) (σ : Contents H) (w : World H)
    (hw : WInv σ w) : ∃ σ' : Contents H, σ.Le σ' ∧ WInv σ' (op.exec hash w) := by
  unfold Op.exec
  split_ifs with hu
  swap
  · exact ⟨σ, .refl σ, hw⟩
  cases op with
  | newPv i t pv =>
    obtain ⟨σ', h1, h2, _⟩ := sim_new σ i t (Grid.toSpectral (H.sph i) pv) w hw
    exact ⟨σ', h1, h2⟩
  | newSpectral i t q =>
    obtain ⟨σ', h1, h2, _⟩ := sim_new σ i t q w hw
    exact ⟨σ', h1, h2⟩
  | read i k p =>
    obtain ⟨s, hk⟩ := hw.exists (hu (i, k) (by simp [Op.uses]))
    obtain ⟨σ', h1, h2, _⟩ := gives_rd hk (yields_read p) w hw
    exact ⟨σ', h1, h2⟩
  | force i k f =>
    obtain ⟨s, hk⟩ := hw.exists (hu (i, k) (by simp [Op.uses]))
    obtain ⟨σ', h1, h2, _⟩ := gives_forcing hH hcol hk f w hw
    exact ⟨σ', h1, h2⟩
  | euler i k M dt =>
    obtain ⟨s, hk⟩ := hw.exists (hu (i, k) (by simp [Op.uses]))
    obtain ⟨σ', h1, h2, _⟩ := sim_euler hH hcol hk M dt w hw
    exact ⟨σ', h1, h2⟩
  | leapfrog i old now M filter =>
    obtain ⟨s, hk⟩ := hw.exists (hu (i, old) (by simp [Op.uses]))
    obtain ⟨s', hk'⟩ := hw.exists (hu (i, now) (by simp [Op.uses]))
    obtain ⟨σ', h1, h2, _⟩ := sim_leapfrog hH hcol hk hk' M filter w hw
    exact ⟨σ', h1, h2⟩
  | run i k M dt tend se fuel =>
    obtain ⟨s, hk⟩ := hw.exists (hu (i, k) (by simp [Op.uses]))
    obtain ⟨σ', h1, h2, _⟩ := sim_run hH hcol hk M dt tend se fuel w hw
    exact ⟨σ', h1, h2⟩

theorem execs_inv (hH : H.Standard) (hcol : H.NoCollision hash) (ops : List (Op H)) : ∀ (σ : Contents H) (w : World H),
    WInv σ w → ∃ σ' : Contents H, σ.Le σ' ∧ WInv σ' (execs hash ops w) := by
  induction ops with
  | nil => exact fun σ w hw => ⟨σ, .refl σ, hw⟩
  | cons op ops ih =>
    intro σ w hw
    obtain ⟨σ1, l1, h1⟩ := exec_inv hH hcol op σ w hw
    obtain ⟨σ2, l2, h2⟩ := ih σ1 _ h1
    exact ⟨σ2, l1.trans l2, h2⟩

theorem reach_inv (hH : H.Standard) (hcol : H.NoCollision hash) (ops : List (Op H)) :
    ∃ σ : Contents H, WInv σ (execs hash ops (World.empty H)) := by
  obtain ⟨σ, _, h⟩ := execs_inv hH hcol ops _ _ winv_empty
  exact ⟨σ, h⟩

/-! ## C51 -/

/-- C51: after any program, every state object has a content (time and spectral PV), every property reads as the function of
the content that it is for a new object, and nothing that is done afterwards changes the content. -/
theorem C51_states (hH : H.Standard) (hcol : H.NoCollision hash) (ops : List (Op H)) :
    let w := execs hash ops (World.empty H)
    ∀ i k, k < (w.states i).length → ∃ s, w.Content i k s ∧ w.Shows i k s ∧
      ∀ ops', (execs hash ops' w).Content i k s ∧ (execs hash ops' w).Shows i k s := by
  intro w i k hk
  obtain ⟨σ, hw⟩ := reach_inv hH hcol ops
  obtain ⟨s, hs⟩ := hw.exists hk
  refine ⟨s, hw.content hs, hw.shows hs, fun ops' => ?_⟩
  obtain ⟨σ', l, hw'⟩ := execs_inv hH hcol ops' σ w hw
  exact ⟨hw'.content (hs.mono l), hw'.shows (hs.mono l)⟩

/-- C51: after any program, a run from any existing state, with any model and parameters, raises the exception or returns
states with the properties that the integration of the content of the initial state alone gives. -/
theorem C51_run (hH : H.Standard) (hcol : H.NoCollision hash) (ops : List (Op H)) :
    let w := execs hash ops (World.empty H)
    ∀ i k s, w.Content i k s → ∀ (M : WModel (H.grid i)) dt tend se fuel,
      (M.runW hash i k dt tend se fuel w).2.Agrees i (M.runW hash i k dt tend se fuel w).1
        ((M.isolated H.orog (H.sph i)).run (H.sph i) s dt tend se fuel) := by
  intro w i k s hs M dt tend se fuel
  obtain ⟨σ, hw⟩ := reach_inv hH hcol ops
  obtain ⟨σ', l, hw', hr⟩ := sim_run hH hcol (hw.at hs) M dt tend se fuel w hw
  generalize (M.runW hash i k dt tend se fuel w).1 = r at hr
  generalize (M.isolated H.orog (H.sph i)).run (H.sph i) s dt tend se fuel = o at hr
  cases r with
  | error e => cases o <;> exact hr
  | ok r =>
    cases r with
    | outOfFuel => cases o <;> exact hr
    | early a as =>
      cases o with
      | early b bs => exact ⟨hw'.shows hr.1, hr.2.imp fun _ _ h => hw'.shows h⟩
      | _ => exact hr
    | done a as =>
      cases o with
      | done b bs => exact ⟨hw'.shows hr.1, hr.2.imp fun _ _ h => hw'.shows h⟩
      | _ => exact hr

/-- C51: the same for single steps and for evaluations of forcing terms. -/
theorem C51_steps (hH : H.Standard) (hcol : H.NoCollision hash) (ops : List (Op H)) :
    let w := execs hash ops (World.empty H)
    ∀ i k s, w.Content i k s →
      (∀ f : Forcing (H.grid i), (f.callW hash i k w).1 = (f.term H.orog (H.sph i)).call s) ∧
      (∀ (M : WModel (H.grid i)) dt, (M.eulerW hash i k dt w).2.AgreesStep i
        ((M.eulerW hash i k dt w).1.map fun a => [a])
        (((M.isolated H.orog (H.sph i)).euler (H.sph i) s dt).map fun b => [b])) ∧
      ∀ (M : WModel (H.grid i)) k' s' filter, w.Content i k' s' → (M.leapfrogW hash i k k' filter w).2.AgreesStep i
        ((M.leapfrogW hash i k k' filter w).1.map fun a => [a.1, a.2])
        (((M.isolated H.orog (H.sph i)).leapfrog (H.sph i) s s' filter).map fun b => [b.1, b.2]) := by
  intro w i k s hs
  obtain ⟨σ, hw⟩ := reach_inv hH hcol ops
  refine ⟨fun f => ?_, fun M dt => ?_, fun M k' s' filter hs' => ?_⟩
  · obtain ⟨_, _, _, _, h⟩ := gives_forcing hH hcol (hw.at hs) f w hw
    exact h
  · obtain ⟨σ', l, hw', hr⟩ := sim_euler hH hcol (hw.at hs) M dt w hw
    generalize (M.eulerW hash i k dt w).1 = r at hr
    generalize (M.isolated H.orog (H.sph i)).euler (H.sph i) s dt = o at hr
    cases r <;> cases o <;> try exact hr
    exact .cons (hw'.shows hr) .nil
  · obtain ⟨σ', l, hw', hr⟩ := sim_leapfrog hH hcol (hw.at hs) (hw.at hs') M filter w hw
    generalize (M.leapfrogW hash i k k' filter w).1 = r at hr
    generalize (M.isolated H.orog (H.sph i)).leapfrog (H.sph i) s s' filter = o at hr
    cases r <;> cases o <;> try exact hr
    exact .cons (hw'.shows hr.1) (.cons (hw'.shows hr.2) .nil)

/-- Two returned states show the same properties. -/
def SameShown {i : ℕ} (w w' : World H) (k k' : ℕ) : Prop :=
  ∃ o o', (w.states i)[k]? = some o ∧ (w'.states i)[k']? = some o' ∧
    ∀ p, (StateObj.read (H.sph i) p o).1 = (StateObj.read (H.sph i) p o').1

/-- C51, without reference to contents: let two programs create, among other things, two state objects with the same time and
spectral PV (for example one program does nothing else). Then a run of the same model returns the same: the same exception,
or equally many states with the same properties. -/
theorem C51_repeatable (hH : H.Standard) (hcol : H.NoCollision hash) (ops ops' : List (Op H)) (i k k' : ℕ)
    (s : St PyTime (H.grid i)) (hs : (execs hash ops (World.empty H)).Content i k s)
    (hs' : (execs hash ops' (World.empty H)).Content i k' s) (M : WModel (H.grid i)) (dt : PyDelta) (tend : PyTime)
    (se : ℝ) (fuel : ℕ) :
    let r := M.runW hash i k dt tend se fuel (execs hash ops (World.empty H))
    let r' := M.runW hash i k' dt tend se fuel (execs hash ops' (World.empty H))
    (∃ e, r.1 = .error e ∧ r'.1 = .error e) ∨ (r.1 = .ok .outOfFuel ∧ r'.1 = .ok .outOfFuel) ∨
    (∃ a as a' as', r.1 = .ok (.early a as) ∧ r'.1 = .ok (.early a' as') ∧ SameShown (i := i) r.2 r'.2 a a' ∧
      List.Forall₂ (SameShown (i := i) r.2 r'.2) as as') ∨
    (∃ a as a' as', r.1 = .ok (.done a as) ∧ r'.1 = .ok (.done a' as') ∧ SameShown (i := i) r.2 r'.2 a a' ∧
      List.Forall₂ (SameShown (i := i) r.2 r'.2) as as') := by
  intro r r'
  have h : r.2.Agrees i r.1 _ := C51_run hH hcol ops i k s hs M dt tend se fuel
  have h' : r'.2.Agrees i r'.1 _ := C51_run hH hcol ops' i k' s hs' M dt tend se fuel
  have hshow : ∀ {a a' : ℕ} {b}, r.2.Shows i a b → r'.2.Shows i a' b → SameShown (i := i) r.2 r'.2 a a' := by
    rintro a a' b ⟨o, ho, hp⟩ ⟨o', ho', hp'⟩
    exact ⟨o, o', ho, ho', fun p => (hp p).trans (hp' p).symm⟩
  have hlist : ∀ (as as' : List ℕ) (bs : List (St PyTime (H.grid i))), List.Forall₂ (r.2.Shows i) as bs →
      List.Forall₂ (r'.2.Shows i) as' bs → List.Forall₂ (SameShown (i := i) r.2 r'.2) as as' := by
    intro as as' bs h1
    induction h1 generalizing as' with
    | nil => intro h2; cases h2; exact .nil
    | cons hab _ ih => intro h2; cases h2 with
      | cons hab' h2 => exact .cons (hshow hab hab') (ih _ h2)
  generalize (M.isolated H.orog (H.sph i)).run (H.sph i) s dt tend se fuel = o at h h'
  generalize r.1 = x at h ⊢
  generalize r'.1 = y at h' ⊢
  cases o with
  | outOfFuel =>
    rcases x with e | (_ | _ | _) <;> try exact h.elim
    rcases y with e | (_ | _ | _) <;> try exact h'.elim
    exact .inr (.inl ⟨rfl, rfl⟩)
  | raised e0 =>
    rcases x with e | (_ | _ | _) <;> try exact h.elim
    rcases y with e | (_ | _ | _) <;> try exact h'.elim
    cases h; cases h'
    exact .inl ⟨_, rfl, rfl⟩
  | early b bs =>
    rcases x with e | (_ | ⟨a, as⟩ | _) <;> try exact h.elim
    rcases y with e | (_ | ⟨a', as'⟩ | _) <;> try exact h'.elim
    exact .inr (.inr (.inl ⟨a, as, a', as', rfl, rfl, hshow h.1 h'.1, hlist as as' bs h.2 h'.2⟩))
  | done b bs =>
    rcases x with e | (_ | _ | ⟨a, as⟩) <;> try exact h.elim
    rcases y with e | (_ | _ | ⟨a', as'⟩) <;> try exact h'.elim
    exact .inr (.inr (.inr ⟨a, as, a', as', rfl, rfl, hshow h.1 h'.1, hlist as as' bs h.2 h'.2⟩))

theorem twice_content (hH : H.Standard) (hcol : H.NoCollision hash) (i : ℕ) (t : PyTime) (q : (H.grid i).Spc)
    (ops : List (Op H)) (k : ℕ) (hk : k < 2) :
    (execs hash (.newSpectral i t q :: .newSpectral i t q :: ops) (World.empty H)).Content i k ⟨t, q⟩ := by
  have hst : (execs hash [.newSpectral i t q, .newSpectral i t q] (World.empty H)).states i =
      [{ time := t, pvSpectral := some q }, { time := t, pvSpectral := some q }] := by
    simp [execs, Op.exec, Op.uses, Op.step, newState, Wd.lift, Wd.alloc, StateObj.init, wd_bind, World.empty]
  obtain ⟨s, ⟨o, ho, h1, h2⟩, -, h⟩ := C51_states hH hcol [.newSpectral i t q, .newSpectral i t q] i k
    (by rw [hst]; exact hk)
  rw [hst] at ho
  have ho' : o = { time := t, pvSpectral := some q } := by
    rcases k with _ | _ | k
    · simpa using ho.symm
    · simpa using ho.symm
    · omega
  subst ho'
  have hs : s = ⟨t, q⟩ := by cases s; simp_all
  rw [← hs]
  exact (h ops).1

/-- Non-vacuity of C51: a program that creates two equal states, reads from the first, evaluates an orographic forcing with
it and runs a model; then the hypotheses of `C51_repeatable` hold for the first and the second state. -/
example (t : PyTime) (q : (heapExample.grid 0).Spc) (M : WModel (heapExample.grid 0)) :
    ∃ hash : RhsHeap.KeyHash, heapExample.Standard ∧ heapExample.NoCollision hash ∧
      ∀ k < 2, (execs hash [.newSpectral 0 t q, .newSpectral 0 t q, .read 0 0 .energy, .force 0 0 (.orography 0),
        .run 0 0 M (.num 60) (.num 600) 0 100] (World.empty heapExample)).Content 0 k ⟨t, q⟩ := by
  have hcol : heapExample.NoCollision (fun _ k => if k.2.1 = 1 then 0 else 1) := by
    intro t i j _ h
    simp only [heapExample, Grid.hashKey] at h ⊢
    by_cases hi : i = 0 <;> by_cases hj : j = 0 <;> simp [hi, hj, grid30] at h ⊢
  exact ⟨_, heapExample_standard, hcol, fun k hk => twice_content heapExample_standard hcol 0 t q _ k hk⟩

end Barotropic
