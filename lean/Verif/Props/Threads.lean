import Verif.Lemmas.ThreadsRef
import Verif.Lemmas.ThreadsSeq
import Verif.Props.Reuse
import Verif.Props.Lax
import Verif.Sample
/-!
# C59: a loader shared by threads

Any number of threads call `load` of one loader; their accesses to its caches are interleaved in any way.  The caches are right at
every moment (`Reachable.shared`, used by all the theorems about reachable loaders).  Every call has the outcome it has alone, under the
conditions of C06 and if the forward references in use were known before; what else can happen is shown by the counterexamples.
-/

namespace TL

variable {W : World} {C : Config}

/-! ## Specification -/

/-- The names a loader knows. -/
def LState.names (s : LState) : Env := s.frefs.map (fun fr n => aget fr n)

/-- The calls do not define names that one of them uses and that the loader does not know. -/
def NoNewNames (W : World) (s : LState) (jobs : List Job) : Prop :=
  ∀ fr, s.frefs = some fr → ∀ i ∈ jobs, ∀ n, Uses W s.names i.type (.fref n) → aget fr n = none →
    ∀ j ∈ jobs, ∀ u, Uses W s.names j.type u → W.tyName u ≠ some n

/-! ## Proof -/

theorem LState.names_some {s : LState} {f : String → Option Ty} (h : s.names = some f) : ∃ fr, s.frefs = some fr ∧ f = fun n => aget fr n := by
  unfold LState.names at h
  cases hf : s.frefs with
  | none => rw [hf] at h; cases h
  | some fr => rw [hf] at h; cases h; exact ⟨fr, rfl, rfl⟩

theorem NoNewNames.same {s : LState} {jobs : List Job} (h : NoNewNames W s jobs) {j : Job} (hj : j ∈ jobs) :
    SameNames W s.names (namesIn W s j.type) j.type := by
  constructor
  · unfold LState.names namesIn
    cases s.frefs <;> simp
  · intro f f' hf hf' n hu
    obtain ⟨fr, h1, rfl⟩ := LState.names_some hf
    unfold namesIn at hf'
    rw [h1] at hf'
    cases hf'
    dsimp only
    cases ha : aget fr n with
    | some u => rfl
    | none =>
      have := h fr h1 j hj n hu ha j hj j.type .self
      rw [if_neg (fun hh => this hh.2)]

theorem steady_all (hdef : C.Default) {s : LState} {jobs : List Job} (h1 : W.NotRequiredLaw) (h2 : W.SteadyTags)
    (hst : ∀ j ∈ jobs, Steady W C s.names j.value j.type) (hn : NoNewNames W s jobs) :
    Tame W C s.names (fun u => ∃ j ∈ jobs, Uses W s.names j.type u) (fun x u => ∃ j ∈ jobs, Reaches W C s.names j.value j.type x u) where
  type _ _ := fun ⟨j, hj, h⟩ => ⟨j, hj, h.uses⟩
  coll _ _ _ _ := fun ⟨j, hj, h⟩ hnd hp _ hx => ⟨j, hj, .elem h hnd hp hx⟩
  tuple _ _ _ := fun ⟨j, hj, h⟩ hnd hp _ _ hx => ⟨j, hj, .item h hnd hp hx⟩
  dict _ _ _ _ := fun ⟨j, hj, h⟩ hd _ hp => ⟨⟨j, hj, .key h hd hp⟩, ⟨j, hj, .val h hd hp⟩⟩
  union _ _ := fun ⟨j, hj, h⟩ _ hu => ⟨j, hj, .member h hu⟩
  newtype _ _ _ := fun ⟨j, hj, h⟩ => ⟨j, hj, .newtype h⟩
  enum _ _ := fun ⟨j, hj, h⟩ _ hu => ⟨j, hj, .hint h hu⟩
  field _ _ _ := fun ⟨j, hj, h⟩ hd _ hf _ _ hk hx _ ht => ⟨j, hj, .field h hd hf hk hx ht⟩
  fref _ f _ _ := fun hΓ ⟨j, hj, h⟩ hf => ⟨j, hj, .fref f h hΓ hf⟩
  unnamed f n hf := fun ⟨i, hi, hu⟩ hno u ⟨j, hj, hw⟩ => by
    obtain ⟨fr, h3, rfl⟩ := LState.names_some hf
    exact hn fr h3 i hi n hu hno j hj u hw
  dictSafe k w := fun ⟨j, hj, hu⟩ => (hst j hj).dictSafe k w hu
  dictColl k w := fun ⟨j, hj, hu⟩ => (hst j hj).dictColl k w hu
  dictExact d k w kvs := fun ⟨j, hj, hd⟩ hk p hp => ((hst j hj).tame hdef h1 h2).dictExact d k w kvs hd hk p hp
  dictUsual _ _ _ := ⟨hdef.usual, hdef.usual⟩
  asks i _ _ _ _ _ hp := absurd (pick_installed hp) (not_installed hdef i)
  notRequired := h1
  steadyTags := h2

theorem knows_names {s : LState} (hc : Coh W C s) (G : Ty → Prop) : Knows W C s.names G s := by
  refine ⟨hc, fun h => ?_, fun f h => ?_⟩
  · unfold LState.names at h
    cases hf : s.frefs with
    | none => rfl
    | some _ => rw [hf] at h; cases h
  · obtain ⟨fr, h1, rfl⟩ := LState.names_some h
    exact ⟨fr, h1, fun _ _ => rfl⟩

/-- **C59** A loader with any history is shared by any number of threads, each making one call.  However their accesses are interleaved, a call that has
returned (raised) has returned (raised) what it does when it is made alone. -/
theorem C59_alone_partial (hd : C.Default) (h1 : W.NotRequiredLaw) (h2 : W.SteadyTags) {s : LState} (hs : Reachable W C s) {jobs : List Job}
    (hst : ∀ j ∈ jobs, Steady W C s.names j.value j.type) (hn : NoNewNames W s jobs) {c : Conf} (hc : (Conf.start W C s jobs).Steps c)
    {i : Nat} {j : Job} (hj : jobs[i]? = some j) :
    (∀ r, c.threads[i]? = some (.ret r) → ∃ s', load W C j.fuel j.value j.type s = .ok r s') ∧
    (∀ e, c.threads[i]? = some (.raise e) → ∃ s', load W C j.fuel j.value j.type s = .err e s') ∧
    (c.threads[i]? = some .stuck → load W C j.fuel j.value j.type s = .div) := by
  have hmem : j ∈ jobs := List.mem_of_getElem? hj
  have ht := steady_all hd h1 h2 hst hn
  have hall : AllSafe (Knows W C s.names (fun u => ∃ j ∈ jobs, Uses W s.names j.type u))
      (fun i r => ∀ j, jobs[i]? = some j → r = Ref.load W C s.names j.fuel j.value j.type ()) (Conf.start W C s jobs) := by
    refine ⟨knows_names hs.coh _, fun i m hm => ⟨s, RewGrows.refl _, ?_⟩⟩
    simp only [Conf.start, List.getElem?_map, Option.map_eq_some_iff] at hm
    obtain ⟨j, hj, rfl⟩ := hm
    refine (TK.load ht j.fuel j.value j.type ⟨j, List.mem_of_getElem? hj, .self⟩ s).weaken (fun r hr j' hj' => ?_)
    rw [hj] at hj'; cases hj'
    exact hr
  have hend := hall.steps hc
  have href := load_ref hd h1 h2 hs (hn.same hmem) (hst j hmem) j.fuel
  refine ⟨fun r hr => ?_, fun e he => ?_, fun hk => ?_⟩
  · obtain ⟨_, _, h⟩ := hend.safe i _ hr
    exact (href.1 r).2 (h j hj).symm
  · obtain ⟨_, _, h⟩ := hend.safe i _ he
    exact (href.2.1 e).2 (h j hj).symm
  · obtain ⟨_, _, h⟩ := hend.safe i _ hk
    exact href.2.2.2 (h j hj).symm


/-- **C59** The same for types without forward references and dictionaries, with no other condition. -/
theorem C59_plain_partial (hd : C.Default) (h1 : W.NotRequiredLaw) (h2 : W.SteadyTags) {s : LState} (hs : Reachable W C s) {jobs : List Job}
    (hf : ∀ j ∈ jobs, ∀ n, ¬ Uses W s.names j.type (.fref n)) (hdict : ∀ j ∈ jobs, ∀ k w, ¬ Uses W s.names j.type (.dict k w))
    {c : Conf} (hc : (Conf.start W C s jobs).Steps c) {i : Nat} {j : Job} (hj : jobs[i]? = some j) :
    (∀ r, c.threads[i]? = some (.ret r) → ∃ s', Loads W C s j.value j.type r s') ∧
    (∀ e, c.threads[i]? = some (.raise e) → ∃ s', Raises W C s j.value j.type e s') := by
  have h := C59_alone_partial hd h1 h2 hs (jobs := jobs)
    (fun j hj => ⟨fun _ n _ hu => absurd hu (hf j hj n), fun k w hu => absurd hu (hdict j hj k w), fun k w hu => absurd hu (hdict j hj k w),
      fun _ _ _ hu => absurd hu.uses (hdict j hj _ _), fun _ _ _ hu => absurd hu.uses (hdict j hj _ _)⟩)
    (fun _ _ i hi n hu => absurd hu (hf i hi n)) hc hj
  exact ⟨fun r hr => (h.1 r hr).imp fun s' h => ⟨_, h⟩, fun e he => (h.2.1 e he).imp fun s' h => ⟨_, h⟩⟩

/-! ## No deadlock, no livelock -/

/-- One access of one of the programs. -/
inductive OneMove : List (Prog Val) → List (Prog Val) → Prop
  | head (f : LState → LState) (k : LState → Prog Val) (s : LState) (ms) : OneMove (k s :: ms) (.act f k :: ms)
  | tail (m) {ms ms'} : OneMove ms' ms → OneMove (m :: ms') (m :: ms)

theorem OneMove.acc_cons {ms : List (Prog Val)} (h : Acc OneMove ms) : ∀ m, Acc OneMove (m :: ms) := by
  induction h with
  | intro ms _ ih =>
    intro m
    induction m with
    | ret a => exact ⟨_, fun _ h => (by cases h; exact ih _ ‹_› _)⟩
    | raise e => exact ⟨_, fun _ h => (by cases h; exact ih _ ‹_› _)⟩
    | stuck => exact ⟨_, fun _ h => (by cases h; exact ih _ ‹_› _)⟩
    | act f k ihm =>
      refine ⟨_, fun _ h => ?_⟩
      cases h with
      | head _ _ s => exact ihm s
      | tail _ h => exact ih _ h _

theorem OneMove.acc (ms : List (Prog Val)) : Acc OneMove ms := by
  induction ms with
  | nil => exact ⟨_, fun _ h => (by cases h)⟩
  | cons m ms ih => exact acc_cons ih m

theorem OneMove.of_append (before : List (Prog Val)) {ms ms' : List (Prog Val)} (h : OneMove ms' ms) : OneMove (before ++ ms') (before ++ ms) := by
  induction before with
  | nil => exact h
  | cons m before ih => exact .tail m ih

/-- **C59** However the threads are scheduled, they make finitely many accesses. -/
theorem C59_terminates : WellFounded (fun c' c : Conf => c.Step c') := by
  have : ∀ ms : List (Prog Val), ∀ s, Acc (fun c' c : Conf => c.Step c') ⟨s, ms⟩ := by
    intro ms
    induction OneMove.acc ms with
    | intro ms _ ih =>
      intro s
      refine ⟨_, fun c' h => ?_⟩
      cases h with
      | mk before f k after => exact ih _ (OneMove.of_append before (.head f k s after)) _
  exact ⟨fun c => this c.threads c.state⟩

/-- **C59** When no thread can go on, all have finished: there are no locks to wait for. -/
theorem C59_no_deadlock {c : Conf} (h : ∀ c', ¬ c.Step c') {i : Nat} {m : Prog Val} (hm : c.threads[i]? = some m) :
    (∃ r, m = .ret r) ∨ (∃ e, m = .raise e) ∨ m = .stuck := by
  cases m with
  | ret r => exact .inl ⟨r, rfl⟩
  | raise e => exact .inr (.inl ⟨e, rfl⟩)
  | stuck => exact .inr (.inr rfl)
  | act f k =>
    obtain ⟨s, ms⟩ := c
    obtain ⟨hi, he⟩ := List.getElem?_eq_some_iff.1 hm
    have : ms = ms.take i ++ Prog.act f k :: ms.drop (i + 1) := by
      rw [← he, ← List.drop_eq_getElem_cons hi, List.take_append_drop]
    exact absurd (Conf.Step.mk (s := s) (ms.take i) f k (ms.drop (i + 1))) (by rw [← this]; exact h _)

theorem Conf.Steps.threads_length {c c' : Conf} (h : c.Steps c') : c'.threads.length = c.threads.length := by
  induction h with
  | refl => rfl
  | next _ hs ih => cases hs with
    | mk before f k after => simpa using ih

/-- **C59** Calls that return or raise when made alone do so together with the others: every execution can be continued until all calls
have finished, and however it is continued the outcomes are those of the calls alone. -/
theorem C59_all_finish_partial (hd : C.Default) (h1 : W.NotRequiredLaw) (h2 : W.SteadyTags) {s : LState} (hs : Reachable W C s) {jobs : List Job}
    (hst : ∀ j ∈ jobs, Steady W C s.names j.value j.type) (hn : NoNewNames W s jobs)
    (halone : ∀ j ∈ jobs, load W C j.fuel j.value j.type s ≠ .div) {c : Conf} (hc : (Conf.start W C s jobs).Steps c) :
    ∃ c', (Conf.start W C s jobs).Steps c' ∧ (∀ c'', ¬ c'.Step c'') ∧ ∀ (i : Nat) (j : Job), jobs[i]? = some j →
      (∃ r s', c'.threads[i]? = some (.ret r) ∧ load W C j.fuel j.value j.type s = .ok r s') ∨
      (∃ e s', c'.threads[i]? = some (.raise e) ∧ load W C j.fuel j.value j.type s = .err e s') := by
  induction C59_terminates.apply c with
  | intro c _ ih =>
    by_cases hmore : ∃ c', c.Step c'
    · obtain ⟨c', hc'⟩ := hmore
      exact ih c' hc' (.next hc hc')
    · have hno : ∀ c', ¬ c.Step c' := fun c' h => hmore ⟨c', h⟩
      refine ⟨c, hc, hno, fun i j hj => ?_⟩
      have hi : i < c.threads.length := by
        rw [hc.threads_length]
        simp only [Conf.start, List.length_map]
        exact (List.getElem?_eq_some_iff.1 hj).1
      have hm : c.threads[i]? = some c.threads[i] := List.getElem?_eq_getElem hi
      have hout := C59_alone_partial hd h1 h2 hs hst hn hc hj
      rcases C59_no_deadlock hno hm with ⟨r, hr⟩ | ⟨e, he⟩ | hk
      · rw [hr] at hm
        obtain ⟨s', h'⟩ := hout.1 r hm
        exact .inl ⟨r, s', hm, h'⟩
      · rw [he] at hm
        obtain ⟨s', h'⟩ := hout.2.1 e hm
        exact .inr ⟨e, s', hm, h'⟩
      · rw [hk] at hm
        exact absurd (hout.2.2 hm) (halone j (List.mem_of_getElem? hj))

/-! ## Schedules -/

/-- The thread `i` makes its next access, if it has one. -/
def Conf.move (c : Conf) (i : Nat) : Conf :=
  match c.threads[i]? with
  | some (.act f k) => ⟨f c.state, c.threads.set i (k c.state)⟩
  | _ => c

/-- The threads make their accesses in the given order. -/
def Conf.play (c : Conf) (schedule : List Nat) : Conf := schedule.foldl Conf.move c

theorem Conf.move_steps {c0 c : Conf} (h : c0.Steps c) (i : Nat) : c0.Steps (c.move i) := by
  unfold Conf.move
  split
  · rename_i f k hm
    obtain ⟨s, ms⟩ := c
    obtain ⟨hi, he⟩ := List.getElem?_eq_some_iff.1 hm
    have e1 : ms = ms.take i ++ Prog.act f k :: ms.drop (i + 1) := by
      rw [← he, ← List.drop_eq_getElem_cons hi, List.take_append_drop]
    have e2 : ms.set i (k s) = ms.take i ++ k s :: ms.drop (i + 1) := by rw [List.set_eq_take_append_cons_drop, if_pos hi]
    have := Conf.Step.mk (s := s) (ms.take i) f k (ms.drop (i + 1))
    rw [← e1, ← e2] at this
    exact .next h this
  · exact h

theorem Conf.play_steps {c0 c : Conf} (h : c0.Steps c) (schedule : List Nat) : c0.Steps (c.play schedule) := by
  induction schedule generalizing c with
  | nil => exact h
  | cons i is ih => exact ih (Conf.move_steps h i)

/-- The call of the thread `i` has returned `r`. -/
def Conf.returned (c : Conf) (i : Nat) (r : Val) : Bool :=
  match c.threads[i]? with
  | some (.ret r') => decide (r' = r)
  | _ => false

/-- The call of the thread `i` has raised an exception with this cause. -/
def Conf.raised (c : Conf) (i : Nat) (m : Msg) : Bool :=
  match c.threads[i]? with
  | some (.raise e) => decide (e.msg = m)
  | _ => false

theorem Conf.returned_iff {c : Conf} {i : Nat} {r : Val} : c.returned i r = true ↔ c.threads[i]? = some (.ret r) := by
  unfold Conf.returned
  cases c.threads[i]? with
  | none => simp
  | some m => cases m <;> simp

theorem Conf.raised_iff {c : Conf} {i : Nat} {m : Msg} : c.raised i m = true ↔ ∃ e, c.threads[i]? = some (.raise e) ∧ e.msg = m := by
  unfold Conf.raised
  cases c.threads[i]? with
  | none => simp
  | some m => cases m <;> simp

/-! ## Counterexamples -/

/-- Two threads make the same call on a new loader, with a self-referential type.  The first is interrupted after it has stored the handler of `Node` and
before it has registered the name; the second finds the handler stored, does not register the name, and fails to resolve the reference.  Alone both calls succeed. -/
theorem C59_unregistered_counterexample :
    let v := Val.dict [(.str "v", .int 1), (.str "next", .dict [(.str "v", .int 2), (.str "next", .none)])]
    ∃ c e r s', (Conf.start Sample.W Sample.C (fresh []) [⟨v, .obj 7, 9⟩, ⟨v, .obj 7, 9⟩]).Steps c ∧ c.threads[1]? = some (.raise e) ∧
      e.msg = .unionNone (.union [.fref "Node", .prim .none]) ∧ Loads Sample.W Sample.C (fresh []) v (.obj 7) r s' := by
  intro v
  have h : ((Conf.start Sample.W Sample.C (fresh []) [⟨v, .obj 7, 9⟩, ⟨v, .obj 7, 9⟩]).play (List.replicate 2 0 ++ List.replicate 20 1)).raised 1
      (.unionNone (.union [.fref "Node", .prim .none])) = true := by decide +kernel
  obtain ⟨e, h1, h2⟩ := Conf.raised_iff.1 h
  exact ⟨_, e, _, _, Conf.play_steps .refl _, h1, h2, ⟨9, rfl⟩⟩

/-- Two classes called `Node`, each with a field `next: Optional['Node']`. -/
def Sample.twinW : World :=
  { Sample.W with
    cls := fun _ => { kind := .dataclass, name := "Node", fields := [{ name := "next", ty := .union [.fref "Node", .prim .none] }] }
    tyName := fun t => match t with
      | .obj _ => some "Node"
      | _ => none }

/-- Two threads load into the two classes `Node`, with a new loader.  Both see that the name is not registered; the first registers its class and resolves
one reference to it, then the second registers the other class (a registered name is replaced!), and the rest of the data of the first becomes an instance
of that.  One after the other, in either order, the calls give the first thread instances of one class for all references. -/
theorem C59_rebound_counterexample :
    let v := Val.dict [(.str "next", .dict [(.str "next", .dict [(.str "next", .none)])])]
    ∃ c, (Conf.start Sample.twinW Sample.C (fresh []) [⟨v, .obj 0, 12⟩, ⟨.dict [(.str "next", .none)], .obj 1, 12⟩]).Steps c ∧
      c.threads[0]? = some (.ret (.inst 0 [("next", .inst 0 [("next", .inst 1 [("next", .none)])])])) ∧
      c.threads[1]? = some (.ret (.inst 1 [("next", .none)])) ∧
      (∃ s1 s2, Loads Sample.twinW Sample.C (fresh []) v (.obj 0) (.inst 0 [("next", .inst 0 [("next", .inst 0 [("next", .none)])])]) s1 ∧
        Loads Sample.twinW Sample.C s1 (.dict [(.str "next", .none)]) (.obj 1) (.inst 1 [("next", .none)]) s2) ∧
      ∃ s1 s2, Loads Sample.twinW Sample.C (fresh []) (.dict [(.str "next", .none)]) (.obj 1) (.inst 1 [("next", .none)]) s1 ∧
        Loads Sample.twinW Sample.C s1 v (.obj 0) (.inst 0 [("next", .inst 1 [("next", .inst 1 [("next", .none)])])]) s2 := by
  intro v
  have h : ∀ p ∈ [((0 : Nat), Val.inst 0 [("next", .inst 0 [("next", .inst 1 [("next", .none)])])]), (1, Val.inst 1 [("next", .none)])],
      ((Conf.start Sample.twinW Sample.C (fresh []) [⟨v, .obj 0, 12⟩, ⟨.dict [(.str "next", .none)], .obj 1, 12⟩]).play
        (List.replicate 4 0 ++ List.replicate 4 1 ++ List.replicate 15 0 ++ List.replicate 20 1 ++ List.replicate 40 0)).returned p.1 p.2 = true := by
    decide +kernel
  exact ⟨_, Conf.play_steps .refl _, Conf.returned_iff.1 (h (0, _) (by simp)), Conf.returned_iff.1 (h (1, _) (by simp)),
    ⟨_, _, ⟨12, rfl⟩, ⟨12, rfl⟩⟩, ⟨_, _, ⟨12, rfl⟩, ⟨12, rfl⟩⟩⟩

/-! ## The hypotheses are met -/

/-- The types met when loading a `Node`, when the name is known. -/
theorem Sample.uses_knownNode {f : String → Option Ty} (hf : f "Node" = some (.obj 7)) {u : Ty} (h : Uses Sample.W (some f) (.obj 7) u) :
    u = .obj 7 ∨ u = .prim .int ∨ u = .union [.fref "Node", .prim .none] ∨ u = .fref "Node" ∨ u = .prim .none := by
  induction h with
  | self => exact Or.inl rfl
  | coll _ ih => simp at ih
  | tuple _ _ ih => simp at ih
  | dictKey _ ih => simp at ih
  | dictVal _ ih => simp at ih
  | newtype _ ih => simp at ih
  | enum _ _ ih => simp at ih
  | union _ hu ih =>
    simp at ih; subst ih
    simp at hu; rcases hu with rfl | rfl <;> simp
  | field _ hfi ht ih =>
    simp at ih; subst ih
    have hf' : _ ∈ Sample.clsNode.fields := hfi
    simp [Sample.clsNode] at hf'
    rcases hf' with rfl | rfl
    · cases ht <;> first | (simp; done) | contradiction
    · cases ht <;> first | (simp; done) | contradiction
  | fref g _ hΓ hn ih =>
    simp at ih; subst ih
    cases hΓ
    rw [hf] at hn
    cases hn
    exact Or.inl rfl

/-- A loader that has loaded a `Node` before is shared by any number of threads that load nodes. -/
example : ∃ s, Reachable Sample.W Sample.C s ∧ ∀ (jobs : List Job), (∀ j ∈ jobs, j.type = .obj 7) → ∀ c, (Conf.start Sample.W Sample.C s jobs).Steps c →
    ∀ (i : Nat) j, jobs[i]? = some j → ∀ r, c.threads[i]? = some (.ret r) → ∃ s', load Sample.W Sample.C j.fuel j.value j.type s = .ok r s' := by
  have hl : ∃ r s1, Loads Sample.W Sample.C (fresh []) (.dict [(.str "v", .int 1), (.str "next", .none)]) (.obj 7) r s1 ∧
      s1.frefs = some [("Node", .obj 7)] := ⟨_, _, ⟨9, rfl⟩, rfl⟩
  obtain ⟨r, s1, hl, hfr⟩ := hl
  have hr : Reachable Sample.W Sample.C s1 := .ok (s := fresh []) (.new (some []) []) hl
  refine ⟨s1, hr, fun jobs hjobs c hc i j hj r hr' => ?_⟩
  have hnames : s1.names = some (fun n => aget [("Node", .obj 7)] n) := by unfold LState.names; rw [hfr]; rfl
  have hu : ∀ j ∈ jobs, ∀ u, Uses Sample.W s1.names j.type u →
      u = .obj 7 ∨ u = .prim .int ∨ u = .union [.fref "Node", .prim .none] ∨ u = .fref "Node" ∨ u = .prim .none := by
    intro j hj u hu
    rw [hjobs j hj, hnames] at hu
    exact Sample.uses_knownNode rfl hu
  refine (C59_alone_partial (show Sample.C.Default from rfl) Sample.notRequiredLaw Sample.steadyTags hr (fun j hj => ?_) ?_ hc hj).1 r hr'
  · refine ⟨fun f n h hn hno => ?_, fun k w h => ?_, fun k w h => ?_, fun _ _ _ h => ?_, fun _ _ _ h => ?_⟩
    · have := hu j hj _ hn
      simp at this
      subst this
      rw [hnames] at h
      cases h
      exact absurd hno (by decide)
    · exact absurd (hu j hj _ h) (by simp)
    · exact absurd (hu j hj _ h) (by simp)
    · exact absurd (hu j hj _ h.uses) (by simp)
    · exact absurd (hu j hj _ h.uses) (by simp)
  · intro fr hf i hi n hn hno
    have := hu i hi _ hn
    simp at this
    subst this
    rw [hfr] at hf
    cases hf
    exact absurd hno (by decide)

/-- A new loader is shared by threads that load lists of a dataclass. -/
example (v w : Val) (n : Nat) (c : Conf)
    (hc : (Conf.start Sample.W Sample.C (fresh []) [⟨v, .coll .list (.obj 0), n⟩, ⟨w, .coll .list (.obj 0), n⟩]).Steps c) (r : Val)
    (hr : c.threads[1]? = some (.ret r)) : ∃ s', Loads Sample.W Sample.C (fresh []) w (.coll .list (.obj 0)) r s' := by
  have ht : ∀ j ∈ [(⟨v, .coll .list (.obj 0), n⟩ : Job), ⟨w, .coll .list (.obj 0), n⟩], j.type = .coll .list (.obj 0) := by
    intro j hj
    simp at hj
    rcases hj with rfl | rfl <;> rfl
  refine (C59_plain_partial (s := fresh []) (show Sample.C.Default from rfl) Sample.notRequiredLaw Sample.steadyTags (.new (some []) []) ?_ ?_ hc (i := 1) (j := ⟨w, _, n⟩) rfl).1 r hr
  · intro j hj m hu
    rw [ht j hj] at hu
    exact absurd (Sample.uses_P hu) (by simp)
  · intro j hj k u hu
    rw [ht j hj] at hu
    exact absurd (Sample.uses_P hu) (by simp)

/-- Two threads that finish. -/
example : ∃ c, (Conf.start Sample.W Sample.C (fresh []) [⟨.list [.int 1], .coll .list (.prim .int), 3⟩, ⟨.list [.int 2], .coll .list (.prim .int), 3⟩]).Steps c ∧
    c.threads[0]? = some (.ret (.list [.int 1])) ∧ c.threads[1]? = some (.ret (.list [.int 2])) := by
  have h : ∀ p ∈ [((0 : Nat), Val.list [.int 1]), (1, Val.list [.int 2])],
      ((Conf.start Sample.W Sample.C (fresh []) [⟨.list [.int 1], .coll .list (.prim .int), 3⟩, ⟨.list [.int 2], .coll .list (.prim .int), 3⟩]).play
        [0, 1, 1, 0, 0, 1, 1, 0, 0, 0, 0, 1, 1, 1, 0, 0, 0, 0, 1, 1, 1]).returned p.1 p.2 = true := by
    decide +kernel
  exact ⟨_, Conf.play_steps .refl _, Conf.returned_iff.1 (h (0, _) (by simp)), Conf.returned_iff.1 (h (1, _) (by simp))⟩

end TL
