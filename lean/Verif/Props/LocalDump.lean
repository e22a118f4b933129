import Verif.Lemmas.LocalDump
import Verif.Props.DumpInside
/-!
# C84: a dump handler has no effect on the values it does not accept
-/

namespace TL

variable {W : World} {C : DConfig}

/-- The first handler of a list whose condition accepts the value. -/
def dFirstOf (W : World) (C : DConfig) (v : Val) : List (DCond × DHandler) → Except Exc DHandler
  | [] => .error (unableToDump v)
  | (c, h) :: rest => match dEvalCond W C c v with
    | .error e => if C.raiseconditionerrors then .error (.plain e) else dFirstOf W C v rest
    | .ok true => .ok h
    | .ok false => dFirstOf W C v rest

theorem dIndexFrom_firstOf (v : Val) (l : List (DCond × DHandler)) : ∀ (pre : List (DCond × DHandler)),
    (match dIndexFrom W C v l pre.length with
      | .error e => .error e
      | .ok i => match (pre ++ l)[i]? with
        | some p => .ok p.2
        | none => .error (.plain (.other 0))) = dFirstOf W C v l := by
  induction l with
  | nil => intro pre; rfl
  | cons p l ih =>
    intro pre
    obtain ⟨c, h⟩ := p
    have ih := ih (pre ++ [(c, h)])
    simp only [List.length_append, List.length_cons, List.length_nil, Nat.zero_add, List.append_assoc, List.cons_append, List.nil_append] at ih
    unfold dIndexFrom dFirstOf
    cases dEvalCond W C c v with
    | error e =>
      cases hr : C.raiseconditionerrors with
      | true => simp only [if_true]
      | false => simp only [Bool.false_eq_true, if_false]; exact ih
    | ok b =>
      cases b with
      | false => exact ih
      | true => simp

theorem dPick_firstOf (v : Val) : dPick W C v = dFirstOf W C v C.handlers := by
  have := dIndexFrom_firstOf (W := W) (C := C) v C.handlers []
  rw [← this]
  unfold dPick dIndex
  simp only [List.nil_append, List.length_nil]
  cases dIndexFrom W C v C.handlers 0 with
  | error e => rfl
  | ok i => dsimp only; cases C.handlers[i]? <;> rfl

theorem dEvalCond_anyList (hs : List (DCond × DHandler)) (c : DCond) (v : Val) : dEvalCond W { C with handlers := hs } c v = dEvalCond W C c v := by
  cases c <;> rfl

theorem dFirstOf_handlers (hs : List (DCond × DHandler)) (v : Val) (l : List (DCond × DHandler)) :
    dFirstOf W { C with handlers := hs } v l = dFirstOf W C v l := by
  induction l with
  | nil => rfl
  | cons p l ih => obtain ⟨c, h⟩ := p; unfold dFirstOf; rw [dEvalCond_anyList, ih]

theorem dFirstOf_insert {v : Val} {p : DCond × DHandler} (hp : DPassesOver W C p.1 v) (back : List (DCond × DHandler)) : ∀ front,
    dFirstOf W C v (front ++ p :: back) = dFirstOf W C v (front ++ back)
  | [] => by
    obtain ⟨c, h⟩ := p
    simp only [List.nil_append]
    rw [dFirstOf]
    rcases hp with hp | ⟨hr, e, hp⟩
    · simp only at hp; rw [hp]
    · simp only at hp; rw [hp]; simp [hr]
  | q :: front => by
    obtain ⟨c, h⟩ := q
    simp only [List.cons_append]
    rw [dFirstOf, dFirstOf, dFirstOf_insert hp back front]

/-- No collection of a basic type is announced by the annotation of a value met. -/
def NoBasicElements (W : World) (C : DConfig) (v : Val) (t : Ty) : Prop :=
  ∀ x u p, DMeets W C v t x u → ElementsOf p u → p ∉ C.basictypes

theorem NoBasicElements.short {v : Val} {t : Ty} (h : NoBasicElements W C v t) {x : Val} {u : Ty} (hm : DMeets W C v t x u) :
    C.isBasic (iterItemTy u) = true → False := by
  intro hb
  obtain ⟨p, h1, h2⟩ := iterItemTy_basic hb
  exact h x u p hm h1 h2

/-- **C84** Two dumpers whose lists of handlers select the same handler for every value that can be met while dumping `v`, and begin with the same
handler, behave the same on `v`, after any sequence of dumps: the same result or the same exception, and the same state afterwards. -/
theorem C84_same_choice {s : DState} (hs : AfterDumps W C s) (v : Val) (t : Ty) (hands : List (DCond × DHandler))
    (hsame : ∀ x u, DMeets W C v t x u → dPick W { C with handlers := hands } x = dPick W C x)
    (hfirst : hands.head?.map (·.2) = C.handlers.head?.map (·.2) ∨ NoBasicElements W C v t) (n : Nat) :
    dump W { C with handlers := hands } n v t s = dump W C n v t s := by
  refine (DSame.dump (DMeets.closed v t) (fun x u hu => (hsame x u hu).symm) (fun x u hu hb => ?_) n v t .self s hs.tidy).1.symm
  rcases hfirst with h | h
  · rw [h]
  · exact (h.short hu hb).elim

/-- **C84 (partial)** A handler inserted in the list, whose condition accepts none of the values that can be met while dumping `v`, changes nothing on
`v` — if it is not inserted at the very front, or no field of a dataclass met is annotated as a collection of a basic type (see the counterexample). -/
theorem C84_inserted_partial {s : DState} (hs : AfterDumps W C s) (v : Val) (t : Ty) (front back : List (DCond × DHandler))
    (hC : C.handlers = front ++ back) (p : DCond × DHandler) (hp : ∀ x u, DMeets W C v t x u → DPassesOver W C p.1 x)
    (hfront : front ≠ [] ∨ NoBasicElements W C v t) (n : Nat) :
    dump W (C.insert front p back) n v t s = dump W C n v t s := by
  refine C84_same_choice hs v t _ (fun x u hu => ?_) (hfront.imp_left (fun hf => ?_)) n
  · rw [dPick_firstOf, dPick_firstOf, dFirstOf_handlers, hC]
    exact dFirstOf_insert (hp x u hu) back front
  · rw [hC]; cases front with
    | nil => exact absurd rfl hf
    | cons q front => rfl

/-- **C84 (partial)** In terms of `typedload.dump(v)` with a `Dumper` made for the occasion. -/
theorem C84_fresh_partial (v : Val) (front back : List (DCond × DHandler)) (hC : C.handlers = front ++ back) (p : DCond × DHandler)
    (hp : ∀ x u, DMeets W C v .any x u → DPassesOver W C p.1 x) (hfront : front ≠ [] ∨ NoBasicElements W C v .any) (n : Nat) :
    apiDump W (C.insert front p back) n v = apiDump W C n v :=
  C84_inserted_partial .new v .any front back hC p hp hfront n

/-- A program with a dataclass `class Q: xs: List[int]`, and a dump handler for objects of a class `Tree`, which it dumps as `"T"`. -/
def Sample.WQ : World :=
  { Sample.W with
    cls := fun c => if c = 9 then { kind := .dataclass, name := "Q", fields := [{ name := "xs", ty := .coll .list (.prim .int) }] } else Sample.cls c
    dumpCond := fun _ v => .ok (typeOf v == .strcons "Tree")
    dumpCustom := fun _ _ _ => .ret (.str "T") }

/-- The values met while dumping `Q([Path("a")])`. -/
theorem Sample.dmeets_q {x : Val} {u : Ty} (h : DMeets Sample.WQ Sample.D (.inst 9 [("xs", .list [.strobj "Path" "a"])]) .any x u) :
    x ∈ [.inst 9 [("xs", .list [.strobj "Path" "a"])], .list [.strobj "Path" "a"], .strobj "Path" "a"] := by
  induction h with
  | self => simp
  | item _ hx ih => simp at ih; obtain ⟨-, rfl⟩ := ih; simp at hx; subst hx; simp
  | ntField _ _ ih => simp at ih
  | key _ _ ih => simp at ih
  | val _ _ ih => simp at ih
  | field _ hp ih => simp at ih; obtain ⟨-, rfl⟩ := ih; simp at hp; subst hp; simp
  | annotated _ hp _ _ ih => simp at ih; obtain ⟨-, rfl⟩ := ih; simp at hp; subst hp; simp
  | member _ _ ih => simp at ih
  | custom _ hi => simp [Sample.D, defaultDHandlers] at hi

/-- The handler for `Tree` accepts none of them. -/
theorem Sample.passes_q : ∀ x u, DMeets Sample.WQ Sample.D (.inst 9 [("xs", .list [.strobj "Path" "a"])]) .any x u →
    DPassesOver Sample.WQ Sample.D (.custom 1) x := by
  intro x u h
  have := Sample.dmeets_q h
  simp only [List.mem_cons, List.not_mem_nil, or_false] at this
  rcases this with rfl | rfl | rfl <;> exact Or.inl (by decide)

/-- **C84** A handler that accepts none of the values met, inserted in front of all the others, changes how objects are dumped: while the handler of
the basic types is the first one, a list in a field annotated `List[int]` is passed through without looking at its elements; once another one is in
front of it, the elements are dumped one by one.  `class Q: xs: List[int]` with `Q([Path("a")])`: `{'xs': [Path('a')]}` becomes `{'xs': ['a']}`. -/
theorem C84_front_counterexample :
    (∀ x u, DMeets Sample.WQ Sample.D (.inst 9 [("xs", .list [.strobj "Path" "a"])]) .any x u → DPassesOver Sample.WQ Sample.D (.custom 1) x) ∧
    (apiDump Sample.WQ Sample.D 9 (.inst 9 [("xs", .list [.strobj "Path" "a"])])).val? = some (.dict [(.str "xs", .list [.strobj "Path" "a"])]) ∧
    (apiDump Sample.WQ (Sample.D.insert [] (.custom 1, .custom 1) defaultDHandlers) 9 (.inst 9 [("xs", .list [.strobj "Path" "a"])])).val? =
      some (.dict [(.str "xs", .list [.str "a"])]) :=
  ⟨Sample.passes_q, by decide, by decide⟩

/-- The hypotheses of `C84_fresh_partial`, for the same handler inserted after that of the basic types... -/
example : Sample.D.handlers = [(.isBasic, .identity)] ++ defaultDHandlers.tail ∧
    (∀ x u, DMeets Sample.WQ Sample.D (.inst 9 [("xs", .list [.strobj "Path" "a"])]) .any x u → DPassesOver Sample.WQ Sample.D (.custom 1) x) ∧
    (([(.isBasic, .identity)] : List (DCond × DHandler)) ≠ []) :=
  ⟨rfl, Sample.passes_q, by simp⟩
/-- ...and a value that the handler does accept. -/
example : (apiDump Sample.WQ (Sample.D.insert [(.isBasic, .identity)] (.custom 1, .custom 1) defaultDHandlers.tail) 9 (.list [.strobj "Tree" "a"])).val? =
    some (.list [.str "T"]) := by decide
/-- The second alternative for the place of the handler: nothing is annotated in a list of strings. -/
example : NoBasicElements Sample.WQ Sample.D (.list [.str "a"]) .any := by
  intro x u p h
  have : u = .any := by
    induction h with
    | annotated h _ _ _ ih =>
      exfalso
      have key : ∀ {x u}, DMeets Sample.WQ Sample.D (.list [.str "a"]) .any x u → x = .list [.str "a"] ∨ x = .str "a" := by
        intro x u h
        induction h with
        | self => simp
        | item _ hx ih => simp at ih; obtain ⟨-, rfl⟩ := ih; simp at hx; subst hx; simp
        | custom _ hi => simp [Sample.D, defaultDHandlers] at hi
        | _ => simp_all
      rcases key h with h | h <;> cases h
    | custom _ hi => simp [Sample.D, defaultDHandlers] at hi
    | _ => rfl
  subst this
  intro h; cases h

end TL
