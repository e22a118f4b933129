import Verif.Props.RoundTrip
/-!
# C27, C33–C36: dumping the simple types and loading them back
-/

namespace TL

variable {W : World} {C : Config} {D : DConfig}

theorem Writes.dumps (hdd : D.Default) {sd : DState} (hsd : DReachable W D sd) {v : Val} (hv : Legal W v) {a : Ty} {d : Val} (h : Writes W D v a d) (r : Val) :
    (∃ sd', Dumps W D sd v a r sd') ↔ r = d := by
  rw [dumps_ref hdd hsd hv]
  obtain ⟨n, hn⟩ := h.exists
  exact ⟨fun ⟨m, hm⟩ => refdump_det hm hn, fun e => ⟨n, e ▸ hn⟩⟩

/-! ## C27 -/

/-- **C27** A member whose value is plain data is dumped as its value, and loading that returns a member whose value is equal to it: the first
one. (The value equals itself: it is not NaN.) -/
theorem C27_dump_load (hd : C.Default) (hdd : D.Default) {sd : DState} (hsd : DReachable W D sd) {s : LState} (hs : Reachable W C s) {e : Nat} {n : String}
    {x : Val} (hv : Legal W (.enumv e n)) (hm : aget (W.enm e).members n = some x) (hx : Plain (· ∈ D.basictypes) x) (hxx : pyEq x x = true) :
    (∀ a r, (∃ sd', Dumps W D sd (.enumv e n) a r sd') ↔ r = x) ∧
    ∃ (m : String) (y : Val) (i : Nat), (W.enm e).members[i]? = some (m, y) ∧ pyEq y x = true ∧
      (∀ j < i, ∀ p : String × Val, (W.enm e).members[j]? = some p → pyEq p.2 x = false) ∧
      ∃ s', Loads W C s x (.enum e) (.enumv e m) s' := by
  constructor
  · intro a r
    refine Writes.dumps hdd hsd hv ?_ r
    refine .step hdd (h := .enum) (by simp [dHandlerOf, typeOf, DConfig.isBasic]) ?_
    simp only [dstep, hm]
    obtain ⟨k, hk⟩ := (dumps_ref hdd hsd hx.legal .any x).1 ((C40_identity hdd hsd hx .any x).2 rfl)
    exact Writes.of_dump hk
  · have hmem := aget_mem hm
    have first : ∀ l : List (String × Val), (∃ q ∈ l, pyEq q.2 x = true) → ∃ (i : Nat) (m : String) (y : Val), l[i]? = some (m, y) ∧ pyEq y x = true ∧
        ∀ j < i, ∀ p : String × Val, l[j]? = some p → pyEq p.2 x = false := by
      intro l
      induction l with
      | nil => rintro ⟨q, hq, _⟩; cases hq
      | cons q l ih =>
        intro hex
        cases hq : pyEq q.2 x with
        | true => exact ⟨0, q.1, q.2, rfl, hq, fun j hj => (by omega)⟩
        | false =>
          obtain ⟨i, m, y, h1, h2, h3⟩ := ih (by
            obtain ⟨p, hp, hpx⟩ := hex
            rcases List.mem_cons.1 hp with rfl | hp
            · rw [hq] at hpx; cases hpx
            · exact ⟨p, hp, hpx⟩)
          refine ⟨i + 1, m, y, h1, h2, fun j hj p hp => ?_⟩
          cases j with
          | zero => simp at hp; subst hp; exact hq
          | succ j => exact h3 j (by omega) p hp
    obtain ⟨i, m, y, h1, h2, h3⟩ := first _ ⟨_, hmem, hxx⟩
    refine ⟨m, y, i, h1, h2, h3, (C27_enum_first hd hs h1).2 h2 h3 (fun p _ he => ?_)⟩
    subst he
    cases hx with
    | basic ht _ => cases ht

example : Legal Sample.W (.enumv 0 "B") ∧ aget (Sample.W.enm 0).members "B" = some (.str "b") ∧ Plain (· ∈ Sample.D.basictypes) (.str "b") ∧
    pyEq (.str "b") (.str "b") = true := by
  refine ⟨Legal.of_parts ⟨_, rfl⟩ (fun x hx => ?_), rfl, .basic rfl (by decide), by decide⟩
  cases hx
  rename_i h
  cases h
  exact Legal.of_parts trivial (fun x hx => (by cases hx))

/-! ## C33 -/

/-- The kind of a date, time or datetime. -/
def dtKind : Val → Option DtKind
  | .date .. => some .date
  | .time .. => some .time
  | .datetime .. => some .datetime
  | _ => none
/-- The timezone of a time or datetime. -/
def tzOf : Val → Option String
  | .time _ _ _ _ tz => tz
  | .datetime _ _ _ _ _ _ _ tz => tz
  | _ => none

/-- **C33** Without isodates a date, a time or a datetime without timezone is dumped as a list of ints, and that list loads back as the same date,
time or datetime. -/
theorem C33_list_round_trip (hd : C.Default) (hdd : D.Default) (hi : D.isodates = false) {sd : DState} (hsd : DReachable W D sd) {s : LState}
    (hs : Reachable W C s) {v : Val} (hv : Legal W v) {k : DtKind} (hk : dtKind v = some k) (htz : tzOf v = none) :
    ∃ is : List Int, (∀ a r, (∃ sd', Dumps W D sd v a r sd') ↔ r = .list (is.map .int)) ∧
      ∀ r, (∃ s', Loads W C s (.list (is.map .int)) (.dt k) r s') ↔ r = v := by
  have key : ∀ is : List Int, Leaf W C D v (.dt k) (.list (is.map .int)) → dtParse W k (.list (is.map .int)) = .ok v → ∃ is : List Int,
      (∀ a r, (∃ sd', Dumps W D sd v a r sd') ↔ r = .list (is.map .int)) ∧
      ∀ r, (∃ s', Loads W C s (.list (is.map .int)) (.dt k) r s') ↔ r = v := by
    intro is hl hp
    refine ⟨is, fun a r => (hl.writes hdd a).dumps hdd hsd hv r, fun r => ?_⟩
    rw [loads_dt hd hs, hp]
    exact ⟨fun h => by cases h; rfl, fun h => by rw [h]⟩
  have ht := hv.top
  cases v <;> simp only [dtKind, Option.some.injEq, reduceCtorEq] at hk <;> subst hk
  case date y m d =>
    have ht : validDate y m d = true := ht
    obtain ⟨h1, h2, h3⟩ := validDate_ranges ht
    refine key [y, m, d] (.date hi ht) ?_
    simp [dtParse, pyIter, dtCall, toCInts, toCInt_small (i := y) (by omega) (by omega),
      toCInt_small (i := m) (by omega) (by omega), toCInt_small (i := d) (by omega) (by omega), ht]
  case time h mi s us tz =>
    have htz : tz = none := htz
    subst htz
    have ht : validTime h mi s us = true := ht
    obtain ⟨h1, h2, h3, h4⟩ := validTime_ranges ht
    refine key [h, mi, s, us] (.time hi ht) ?_
    simp [dtParse, pyIter, dtCall, toCInts, toCInt_small (i := h) (by omega) (by omega),
      toCInt_small (i := mi) (by omega) (by omega), toCInt_small (i := s) (by omega) (by omega), toCInt_small (i := us) (by omega) (by omega), ht]
  case datetime y m d h mi s us tz =>
    have htz : tz = none := htz
    subst htz
    have ht : validDate y m d = true ∧ validTime h mi s us = true := ht
    obtain ⟨g1, g2, g3⟩ := validDate_ranges ht.1
    obtain ⟨h1, h2, h3, h4⟩ := validTime_ranges ht.2
    refine key [y, m, d, h, mi, s, us] (.datetime hi ht.1 ht.2) ?_
    simp [dtParse, pyIter, dtCall, toCInts, toCInt_small (i := h) (by omega) (by omega),
      toCInt_small (i := mi) (by omega) (by omega), toCInt_small (i := s) (by omega) (by omega), toCInt_small (i := us) (by omega) (by omega),
      toCInt_small (i := y) (by omega) (by omega), toCInt_small (i := m) (by omega) (by omega), toCInt_small (i := d) (by omega) (by omega), ht.1, ht.2]

/-- What an isodates dumper writes. -/
theorem writes_iso (hdd : D.Default) (hi : D.isodates = true) {v : Val} {k : DtKind} (hk : dtKind v = some k) (a : Ty) :
    Writes W D v a (.str (W.isoformat v)) := by
  cases v <;> simp only [dtKind, reduceCtorEq] at hk
  all_goals exact .step hdd (h := .date) (by simp [dHandlerOf, typeOf, DConfig.isBasic]) (by simp only [dstep, datetimedump, hi]; exact Ok.pure _)

/-- **C33** With isodates a date, time or datetime (with or without timezone) is dumped as the string given by its `isoformat`, and that string is
loaded as `fromisoformat` reads it: the two are inverse exactly if the ISO functions are. -/
theorem C33_iso_round_trip (hd : C.Default) (hdd : D.Default) (hi : D.isodates = true) {sd : DState} (hsd : DReachable W D sd) {s : LState}
    (hs : Reachable W C s) {v : Val} (hv : Legal W v) {k : DtKind} (hk : dtKind v = some k) :
    (∀ a r, (∃ sd', Dumps W D sd v a r sd') ↔ r = .str (W.isoformat v)) ∧
      ∀ r, (∃ s', Loads W C s (.str (W.isoformat v)) (.dt k) r s') ↔ W.fromIso k (W.isoformat v) = .ok r := by
  refine ⟨fun a r => (writes_iso hdd hi hk a).dumps hdd hsd hv r, fun r => ?_⟩
  rw [loads_dt hd hs]
  rfl

/-- **C33** Without isodates a time or a datetime with a timezone is never written: dump raises NotImplementedError. -/
theorem C33_timezone (hdd : D.Default) (hi : D.isodates = false) {sd : DState} (hsd : DReachable W D sd) {v : Val} (hv : Legal W v) {z : String}
    (htz : tzOf v = some z) (a : Ty) :
    (∃ e sd', DumpRaises W D sd v a e sd' ∧ e.cls = .notImplemented) ∧ ∀ r sd', ¬ Dumps W D sd v a r sd' := by
  have he : Ref.dump W D 1 v a () = .err (.plain .notImplemented) () := by
    unfold Ref.dump
    cases v <;> simp only [tzOf, reduceCtorEq] at htz
    all_goals
      subst htz
      simp only [dPick_eq hdd, dHandlerOf, typeOf, DConfig.isBasic, dstep, datetimedump, hi]
      rfl
  constructor
  · obtain ⟨sd', h⟩ := (dumpRaises_ref hdd hsd hv a _).2 ⟨1, he⟩
    exact ⟨_, sd', h, rfl⟩
  · intro r sd' h
    obtain ⟨n, hn⟩ := (dumps_ref hdd hsd hv a r).1 ⟨sd', h⟩
    cases n with
    | zero => cases hn
    | succ n =>
      unfold Ref.dump at he hn
      cases v <;> simp only [tzOf, reduceCtorEq] at htz
      all_goals
        subst htz
        simp only [dPick_eq hdd, dHandlerOf, typeOf, DConfig.isBasic, dstep, datetimedump, hi] at hn
        cases hn

example : dtKind (.datetime 2024 2 29 12 0 0 5 none) = some .datetime ∧ tzOf (.datetime 2024 2 29 12 0 0 5 none) = none := ⟨rfl, rfl⟩
example : tzOf (.time 1 2 3 4 (some "UTC")) = some "UTC" := rfl
example : (dump Sample.W Sample.D 1 (.datetime 2024 2 29 12 0 0 5 none) .any {}).val? =
    some (.list [.int 2024, .int 2, .int 29, .int 12, .int 0, .int 0, .int 5]) := by decide
example : (load Sample.W Sample.C 1 (.list [.int 2024, .int 2, .int 29, .int 12, .int 0, .int 0, .int 5]) (.dt .datetime) (fresh [])).val? =
    some (.datetime 2024 2 29 12 0 0 5 none) := by decide
example : (dump Sample.W Sample.D 1 (.time 1 2 3 4 (some "UTC")) .any {}).err?.map (·.cls) = some .notImplemented := by decide
example : (dump Sample.W { Sample.D with isodates := true } 1 (.time 1 2 3 4 (some "UTC")) .any {}).val? = some (.str "iso") := by decide

/-! ## C34 -/

/-- **C34** A timedelta is dumped as the float of its number of seconds, and that float is loaded as `timedelta(0, f)` reads it: the timedelta
comes back exactly if its number of seconds is represented precisely enough. -/
theorem C34_round_trip (hd : C.Default) (hdd : D.Default) {sd : DState} (hsd : DReachable W D sd) {s : LState} (hs : Reachable W C s) {us : Int}
    (hv : Legal W (.timedelta us)) :
    (∀ a r, (∃ sd', Dumps W D sd (.timedelta us) a r sd') ↔ r = .float (W.totalSeconds us)) ∧
      ∀ r, (∃ s', Loads W C s (.float (W.totalSeconds us)) .timedelta r s') ↔ ∃ us', W.tdFloat (W.totalSeconds us) = .ok us' ∧ r = .timedelta us' := by
  constructor
  · intro a r
    refine Writes.dumps hdd hsd hv ?_ r
    exact .step hdd (h := .timedelta) (by simp [dHandlerOf, typeOf, DConfig.isBasic]) (Ok.pure _)
  · intro r
    rw [leaf_loads hs.coh (pick_timedelta hd) (fun rec s => step_td rec _ s)]
    simp only [tdSeconds]
    cases W.tdFloat (W.totalSeconds us) with
    | ok x => simp [Except.map, eq_comm]
    | error c => simp [Except.map]

example : Legal Sample.W (.timedelta 5000000) := by
  refine Legal.of_parts (show validTimedelta 5000000 = true by decide) (fun x hx => ?_)
  cases hx

/-! ## C35 -/

/-- **C35** Dumping a pattern returns its source, and loading the source again compiles it: the same pattern comes back. -/
theorem C35_round_trip (hd : C.Default) (hdd : D.Default) {sd : DState} (hsd : DReachable W D sd) {s : LState} (hs : Reachable W C s) {src : Val}
    (hv : Legal W (.pattern src)) (hc : W.reCompile src = .ok ()) :
    (∀ a r, (∃ sd', Dumps W D sd (.pattern src) a r sd') ↔ r = src) ∧
      ∀ a r, (∃ s', Loads W C s src (.pattern a) r s') ↔ r = .pattern src := by
  constructor
  · intro a r
    refine Writes.dumps hdd hsd hv ?_ r
    exact .step hdd (h := .pattern) (by simp [dHandlerOf, typeOf, DConfig.isBasic]) (Ok.pure _)
  · intro a r
    rw [C35_pattern_partial hd hs]
    have ht : typeOf src = .prim .str ∨ typeOf src = .prim .bytes := hv.top
    constructor
    · rintro (⟨_, _, rfl⟩ | ⟨⟨x, rfl⟩, _⟩)
      · rfl
      · rcases ht with h | h <;> simp [typeOf] at h
    · rintro rfl
      refine Or.inl ⟨?_, hc, rfl⟩
      rcases ht with h | h <;> cases src <;> simp [typeOf] at h <;> simp

example : Legal Sample.W (.pattern (.str "a+")) ∧ Sample.W.reCompile (.str "a+") = .ok () := by
  refine ⟨Legal.of_parts (Or.inl rfl) (fun x hx => ?_), rfl⟩
  cases hx
  exact Legal.of_parts trivial (fun x hx => (by cases hx))

/-! ## C36 -/

/-- **C36** An instance of a class of `strconstructed` is dumped as its `str()`, and that string is loaded by calling the class on it: the object
comes back exactly if the class rebuilds it from its `str()`. -/
theorem C36_round_trip (hd : C.Default) (hdd : D.Default) {sd : DState} (hsd : DReachable W D sd) {s : LState} (hs : Reachable W C s) {v : Val}
    (hv : Legal W v) {c : String} (ht : typeOf v = .strcons c) (hc : c ∈ D.strconstructed) (hc' : c ∈ C.strconstructed) :
    (∀ a r, (∃ sd', Dumps W D sd v a r sd') ↔ r = .str (W.strOf v)) ∧
      ∀ r, (∃ s', Loads W C s (.str (W.strOf v)) (.strcons c) r s') ↔ W.call (.strcons c) (.str (W.strOf v)) = .ok r := by
  constructor
  · intro a r
    refine Writes.dumps hdd hsd hv ?_ r
    refine .step hdd (h := .str) ?_ (Ok.pure _)
    unfold dHandlerOf
    rw [ht, if_neg (by simp [DConfig.isBasic])]
    cases v <;> simp [typeOf] at ht
    subst ht
    simp [hc]
  · exact fun r => C36_loads hd hs hc' _ r

example : (dump Sample.W Sample.D 1 (.strobj "Path" "/x") .any {}).val? = some (.str "/x") := by decide
example : (load Sample.W Sample.C 1 (.str "/x") (.strcons "Path") (fresh [])).val? = some (.strobj "Path" "/x") := by decide

end TL
