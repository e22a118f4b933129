import Verif.Props.Dump
/-!
# C65: a Dumper shared by threads, and dumps abandoned half-way

Any number of threads call `dump` on the same Dumper.  Their accesses to the caches of the dumper are interleaved in any order (`DConf.Steps`).
What each call returns or raises is what it returns or raises when made alone; the calls finish; and at every moment, also when calls have been
abandoned in the middle, the dumper dumps what a new one does.
-/

namespace TL

variable {W : World} {C : DConfig}

/-- **C65** A dumper with any history is shared by any number of threads, each dumping one value.  However their accesses are interleaved, a call that
has returned (raised) has returned (raised) what it does when it is made alone. -/
theorem C65_alone (hb : C.ByType W) {s : DState} (hs : DReachable W C s) {jobs : List DJob} (hl : ∀ j ∈ jobs, Legal W j.value)
    {c : DConf} (hc : (DConf.start W C s jobs).Steps c) {i : Nat} {j : DJob} (hj : jobs[i]? = some j) :
    (∀ r, c.threads[i]? = some (.ret r) → ∃ s', Dumps W C s j.value j.type r s') ∧
    (∀ e, c.threads[i]? = some (.raise e) → ∃ s', DumpRaises W C s j.value j.type e s') ∧
    (c.threads[i]? = some .stuck → dump W C j.fuel j.value j.type s = .div) := by
  have hend := ((hs.coh' hb).start hb hl).steps hc
  have href := dump_ref_byType hb hs (hl j (List.mem_of_getElem? hj)) j.type j.fuel
  refine ⟨fun r hr => ?_, fun e he => ?_, fun hk => ?_⟩
  · obtain ⟨s', h⟩ := (href.1 r).2 (hend.safe i _ hr j hj).symm
    exact ⟨s', _, h⟩
  · obtain ⟨s', h⟩ := (href.2.1 e).2 (hend.safe i _ he j hj).symm
    exact ⟨s', _, h⟩
  · exact href.2.2.2 (hend.safe i _ hk j hj).symm

/-! ## No deadlock, no livelock -/

/-- One access of one of the programs. -/
inductive DOneMove : List (DProg Val) → List (DProg Val) → Prop
  | head (f : DState → DState) (k : DState → DProg Val) (s : DState) (ms) : DOneMove (k s :: ms) (.act f k :: ms)
  | tail (m) {ms ms'} : DOneMove ms' ms → DOneMove (m :: ms') (m :: ms)

theorem DOneMove.acc_cons {ms : List (DProg Val)} (h : Acc DOneMove ms) : ∀ m, Acc DOneMove (m :: ms) := by
  induction h with
  | intro ms _ ih =>
    intro m
    induction m with
    | ret a => exact ⟨_, fun _ h => (by cases h; exact ih _ ‹_› _)⟩
    | raise e => exact ⟨_, fun _ h => (by cases h; exact ih _ ‹_› _)⟩
    | stuck => exact ⟨_, fun _ h => (by cases h; exact ih _ ‹_› _)⟩
    | act f k ihm =>
      refine ⟨_, fun _ h => ?_⟩
      cases h with
      | head _ _ s => exact ihm s
      | tail _ h => exact ih _ h _

theorem DOneMove.acc (ms : List (DProg Val)) : Acc DOneMove ms := by
  induction ms with
  | nil => exact ⟨_, fun _ h => (by cases h)⟩
  | cons m ms ih => exact acc_cons ih m

theorem DOneMove.of_append (before : List (DProg Val)) {ms ms' : List (DProg Val)} (h : DOneMove ms' ms) : DOneMove (before ++ ms') (before ++ ms) := by
  induction before with
  | nil => exact h
  | cons m before ih => exact .tail m ih

/-- **C65** However the threads are scheduled, they make finitely many accesses. -/
theorem C65_terminates : WellFounded (fun c' c : DConf => c.Step c') := by
  have : ∀ ms : List (DProg Val), ∀ s, Acc (fun c' c : DConf => c.Step c') ⟨s, ms⟩ := by
    intro ms
    induction DOneMove.acc ms with
    | intro ms _ ih =>
      intro s
      refine ⟨_, fun c' h => ?_⟩
      cases h with
      | mk before f k after => exact ih _ (DOneMove.of_append before (.head f k s after)) _
  exact ⟨fun c => this c.threads c.state⟩

/-- **C65** When no thread can go on, all have finished: there are no locks to wait for. -/
theorem C65_no_deadlock {c : DConf} (h : ∀ c', ¬ c.Step c') {i : Nat} {m : DProg Val} (hm : c.threads[i]? = some m) :
    (∃ r, m = .ret r) ∨ (∃ e, m = .raise e) ∨ m = .stuck := by
  cases m with
  | ret r => exact .inl ⟨r, rfl⟩
  | raise e => exact .inr (.inl ⟨e, rfl⟩)
  | stuck => exact .inr (.inr rfl)
  | act f k =>
    obtain ⟨s, ms⟩ := c
    obtain ⟨hi, he⟩ := List.getElem?_eq_some_iff.1 hm
    have : ms = ms.take i ++ DProg.act f k :: ms.drop (i + 1) := by
      rw [← he, ← List.drop_eq_getElem_cons hi, List.take_append_drop]
    exact absurd (DConf.Step.mk (s := s) (ms.take i) f k (ms.drop (i + 1))) (by rw [← this]; exact h _)

theorem DConf.Steps.threads_length {c c' : DConf} (h : c.Steps c') : c'.threads.length = c.threads.length := by
  induction h with
  | refl => rfl
  | next _ hs ih => cases hs with
    | mk before f k after => simpa using ih

theorem DConf.Steps.append {a b c : DConf} (h : a.Steps b) (h' : b.Steps c) : a.Steps c := by
  induction h' with
  | refl => exact h
  | next _ hs ih => exact .next ih hs

/-- **C65** Calls that return or raise when made alone do so together with the others: every execution can be continued until all calls have finished,
and however it is continued the outcomes are those of the calls alone. -/
theorem C65_all_finish (hb : C.ByType W) {s : DState} (hs : DReachable W C s) {jobs : List DJob} (hl : ∀ j ∈ jobs, Legal W j.value)
    (halone : ∀ j ∈ jobs, dump W C j.fuel j.value j.type s ≠ .div) {c : DConf} (hc : (DConf.start W C s jobs).Steps c) :
    ∃ c', c.Steps c' ∧ (∀ c'', ¬ c'.Step c'') ∧ ∀ (i : Nat) (j : DJob), jobs[i]? = some j →
      (∃ r s', c'.threads[i]? = some (.ret r) ∧ Dumps W C s j.value j.type r s') ∨
      (∃ e s', c'.threads[i]? = some (.raise e) ∧ DumpRaises W C s j.value j.type e s') := by
  suffices h : ∀ d, c.Steps d → ∃ c', c.Steps c' ∧ (∀ c'', ¬ c'.Step c'') ∧ ∀ (i : Nat) (j : DJob), jobs[i]? = some j →
      (∃ r s', c'.threads[i]? = some (.ret r) ∧ Dumps W C s j.value j.type r s') ∨
      (∃ e s', c'.threads[i]? = some (.raise e) ∧ DumpRaises W C s j.value j.type e s') from h c .refl
  intro d
  induction C65_terminates.apply d with
  | intro d _ ih =>
    intro hd
    by_cases hmore : ∃ c', d.Step c'
    · obtain ⟨c', hc'⟩ := hmore
      exact ih c' hc' (.next hd hc')
    · have hno : ∀ c', ¬ d.Step c' := fun c' h => hmore ⟨c', h⟩
      have hall : (DConf.start W C s jobs).Steps d := by
        exact hc.append hd
      refine ⟨d, hd, hno, fun i j hj => ?_⟩
      have hi : i < d.threads.length := by
        rw [hall.threads_length]
        simp only [DConf.start, List.length_map]
        exact (List.getElem?_eq_some_iff.1 hj).1
      have hm : d.threads[i]? = some d.threads[i] := List.getElem?_eq_getElem hi
      have hout := C65_alone hb hs hl hall hj
      rcases C65_no_deadlock hno hm with ⟨r, hr⟩ | ⟨e, he⟩ | hk
      · rw [hr] at hm
        obtain ⟨s', h'⟩ := hout.1 r hm
        exact .inl ⟨r, s', hm, h'⟩
      · rw [he] at hm
        obtain ⟨s', h'⟩ := hout.2.1 e hm
        exact .inr ⟨e, s', hm, h'⟩
      · rw [hk] at hm
        exact absurd (hout.2.2 hm) (halone j (List.mem_of_getElem? hj))

/-- **C65** At every moment of a concurrent use, calls having finished, being under way or having been abandoned between two accesses, the dumper
returns and raises what a new dumper does. -/
theorem C65_usable (hb : C.ByType W) {s : DState} (hs : DReachable W C s) {jobs : List DJob} (hl : ∀ j ∈ jobs, Legal W j.value)
    {c : DConf} (hc : (DConf.start W C s jobs).Steps c) {v : Val} (hv : Legal W v) (t : Ty) :
    (∀ r, (∃ s', Dumps W C c.state v t r s') ↔ ∃ s', Dumps W C {} v t r s') ∧
    (∀ e, (∃ s', DumpRaises W C c.state v t e s') ↔ ∃ s', DumpRaises W C {} v t e s') := by
  have hr : DReachable W C c.state := hs.shared jobs ⟨rfl, rfl, rfl, rfl⟩ hl hc
  exact ⟨fun r => (dumps_ref_byType hb hr hv t r).trans (dumps_ref_byType hb .new hv t r).symm,
    fun e => (dumpRaises_ref_byType hb hr hv t e).trans (dumpRaises_ref_byType hb .new hv t e).symm⟩

/-! ## Schedules -/

/-- The thread `i` makes its next access, if it has one. -/
def DConf.move (c : DConf) (i : Nat) : DConf :=
  match c.threads[i]? with
  | some (.act f k) => ⟨f c.state, c.threads.take i ++ k c.state :: c.threads.drop (i + 1)⟩
  | _ => c

/-- The accesses in the order of the schedule. -/
def DConf.play (c : DConf) (schedule : List Nat) : DConf := schedule.foldl DConf.move c

theorem DConf.move_steps {c0 c : DConf} (h : c0.Steps c) (i : Nat) : c0.Steps (c.move i) := by
  unfold DConf.move
  split
  · rename_i f k hm
    refine .next h ?_
    obtain ⟨s, ms⟩ := c
    obtain ⟨hi, he⟩ := List.getElem?_eq_some_iff.1 hm
    have hms : ms = ms.take i ++ DProg.act f k :: ms.drop (i + 1) := by
      rw [← he, ← List.drop_eq_getElem_cons hi, List.take_append_drop]
    have := DConf.Step.mk (s := s) (ms.take i) f k (ms.drop (i + 1))
    rw [← hms] at this
    exact this
  · exact h

theorem DConf.play_steps {c0 c : DConf} (h : c0.Steps c) (schedule : List Nat) : c0.Steps (c.play schedule) := by
  induction schedule generalizing c with
  | nil => exact h
  | cons i rest ih => exact ih (DConf.move_steps h i)

namespace Sample
/-- Two threads: one dumps an instance of a dataclass, the other a list holding an instance of the same class. -/
def dumpJobs : List DJob := [{ value := p0, fuel := 5 }, { value := .list [p0, l0], fuel := 6 }]

theorem dumpJobs_legal : ∀ j ∈ dumpJobs, Legal Sample.W j.value := by
  intro j hj
  simp only [dumpJobs, List.mem_cons, List.not_mem_nil, or_false] at hj
  rcases hj with rfl | rfl
  · exact p0_legal
  · refine .of_parts (fun h => (by cases h)) (fun x hx => ?_)
    cases hx with
    | elem h =>
      simp only [List.mem_cons, List.not_mem_nil, or_false] at h
      rcases h with rfl | rfl
      · exact p0_legal
      · exact l0_legal
end Sample

/-- The call of the thread `i` has returned `r`. -/
def DConf.returned (c : DConf) (i : Nat) (r : Val) : Bool :=
  match c.threads[i]? with
  | some (.ret x) => decide (x = r)
  | _ => false

-- C65: the threads take turns; both miss the caches for the class of `p0`, both fill them; both return
example : Sample.D.Default ∧ DReachable Sample.W Sample.D {} ∧ (∀ j ∈ Sample.dumpJobs, Legal Sample.W j.value) ∧
    (∀ j ∈ Sample.dumpJobs, dump Sample.W Sample.D j.fuel j.value j.type {} ≠ .div) ∧
    let c := (DConf.start Sample.W Sample.D {} Sample.dumpJobs).play ((List.range 60).map (· % 2))
    (DConf.start Sample.W Sample.D {} Sample.dumpJobs).Steps c ∧
    c.returned 0 (.dict [(.str "x", .int 1), (.str "zed", .str "q")]) = true ∧
    c.returned 1 (.list [.dict [(.str "x", .int 1), (.str "zed", .str "q")],
      .list [.dict [(.str "a", .int 2)], .int 1, .list [.int 1, .int 2], .list [.int 2020, .int 2, .int 29]]]) = true := by
  refine ⟨rfl, .new, Sample.dumpJobs_legal, ?_, DConf.play_steps .refl _, ?_, ?_⟩
  · intro j hj
    simp only [Sample.dumpJobs, List.mem_cons, List.not_mem_nil, or_false] at hj
    rcases hj with rfl | rfl <;> (intro h; cases h)
  · decide +kernel
  · decide +kernel

end TL
