import Verif.Props.DumpDispatch
import Verif.Props.Prims
/-!
# C71: dump handlers added by the user are used inside containers and objects

The theorems are about dumpers with any list of handlers whose conditions look at the type of the value only; the container has its default handler
(wherever that is in the list), its parts have any handler — default or of the user, see C53 for what dumping them is.
-/

namespace TL

variable {W : World} {C : DConfig}

/-! ## Specification -/

/-- The handler that `d.index(v)` selects. -/
def DumpedBy (W : World) (C : DConfig) (v : Val) (h : DHandler) : Prop := ∃ i c, dIndex W C v = .ok i ∧ C.handlers[i]? = some (c, h)

/-- The shortcut for lists of basic types does not apply: the annotation does not announce elements of a basic type, or the first handler has been replaced. -/
def NoShortcut (C : DConfig) (a : Ty) : Prop :=
  (∀ p, ElementsOf p a → p ∉ C.basictypes) ∨ ∀ c h hs, C.handlers = (c, h) :: hs → h ≠ .identity

/-! ## Proofs -/

theorem DumpedBy.pick {v : Val} {h : DHandler} (hd : DumpedBy W C v h) : dPick W C v = .ok h := by
  obtain ⟨i, c, h1, h2⟩ := hd
  exact dPick_of_index h1 h2

theorem NoShortcut.off {a : Ty} (h : NoShortcut C a) : (C.isBasic (iterItemTy a) && (C.handlers.head?.map (·.2) == some .identity)) = false := by
  cases h with
  | inl h =>
    cases hb : C.isBasic (iterItemTy a) with
    | false => rfl
    | true =>
      obtain ⟨p, h1, h2⟩ := iterItemTy_basic hb
      exact absurd h2 (h p h1)
  | inr h =>
    cases hh : C.handlers with
    | nil => simp
    | cons p hs =>
      obtain ⟨c, f⟩ := p
      have := h c f hs hh
      simp [this]

theorem refdump_step {v : Val} {a : Ty} {h : DHandler} (hp : dPick W C v = .ok h) (n : Nat) :
    Ref.dump W C (n + 1) v a () = dstep W C (fun c => Pure.pure (mkDataDesc W (W.cls c))) (Ref.dump W C n) h v a () := by
  show (match dPick W C v with
    | .error e => M.throw e
    | .ok h => dstep W C (fun c => Pure.pure (mkDataDesc W (W.cls c))) (Ref.dump W C n) h v a : M Unit Exc Val) () = _
  rw [hp]

theorem refdump_ex {v : Val} {a : Ty} {h : DHandler} (hp : dPick W C v = .ok h) (o : Except Exc Val) :
    (∃ n, Ref.dump W C n v a () = Res.mk o ()) ↔
      ∃ n, dstep W C (fun c => Pure.pure (mkDataDesc W (W.cls c))) (Ref.dump W C n) h v a () = Res.mk o () := by
  constructor
  · rintro ⟨n, h'⟩
    cases n with
    | zero => exact absurd h'.symm (Res.mk_ne_div _ _)
    | succ n => exact ⟨n, by rw [← refdump_step hp]; exact h'⟩
  · rintro ⟨n, h'⟩; exact ⟨n + 1, by rw [refdump_step hp]; exact h'⟩

/-- Some amount of fuel is enough for all. -/
theorem zip2_fuel {α β : Type} {R : Nat → α → β → Prop} (hm : ∀ n m a b, n ≤ m → R n a b → R m a b) {as : List α} {bs : List β}
    (h : Zip2 (fun a b => ∃ n, R n a b) as bs) : ∃ n, Zip2 (R n) as bs := by
  induction h with
  | nil => exact ⟨0, .nil⟩
  | cons h _ ih =>
    obtain ⟨n, h⟩ := h
    obtain ⟨m, ih⟩ := ih
    exact ⟨max n m, .cons (hm _ _ _ _ (Nat.le_max_left _ _) h) (ih.mono (fun a b => hm _ _ _ _ (Nat.le_max_right _ _)))⟩

/-- **C71** A list, tuple, set or frozenset with its default handler is dumped by dumping each element, in order, after any history: the result is the list of what the elements
are dumped to. -/
theorem C71_list (hb : C.ByType W) {s : DState} (hs : DReachable W C s) {k : SeqKind} {xs : List Val} (hv : Legal W (.seq k xs))
    (hp : DumpedBy W C (.seq k xs) .iterator) {a : Ty} (hn : NoShortcut C a) (r : Val) :
    (∃ s', Dumps W C s (.seq k xs) a r s') ↔ ∃ ys, Zip2 (fun x y => ∃ s', Dumps W C s x .any y s') xs ys ∧ r = .list ys := by
  have hx : ∀ x ∈ xs, ∀ y, (∃ s', Dumps W C s x .any y s') ↔ ∃ n, Ref.dump W C n x .any () = .ok y () :=
    fun x hx y => dumps_ref_byType hb hs (hv.inside (.elem .self hx)) .any y
  have step : ∀ n, dstep W C (fun c => Pure.pure (mkDataDesc W (W.cls c))) (Ref.dump W C n) .iterator (.seq k xs) a () = .ok r () ↔
      ∃ ys, Zip2 (fun x y => Ref.dump W C n x .any () = .ok y ()) xs ys ∧ r = .list ys := by
    intro n
    unfold dstep iteratordump
    dsimp only
    rw [hn.off]
    simp only [Bool.false_eq_true, if_false, R.bind_ok, iterContents]
    constructor
    · rintro ⟨ys, h1, h2⟩; exact ⟨ys, dumpList_ok.1 h1, R.pure_ok.1 h2⟩
    · rintro ⟨ys, h1, h2⟩; exact ⟨ys, dumpList_ok.2 h1, R.pure_ok.2 h2⟩
  refine ((dumps_ref_byType hb hs hv a r).trans (refdump_ex hp.pick (.ok r))).trans ?_
  constructor
  · rintro ⟨n, h⟩
    obtain ⟨ys, h1, h2⟩ := (step n).1 h
    exact ⟨ys, h1.imp_mem (fun x hxm y _ h => (hx x hxm y).2 ⟨n, h⟩), h2⟩
  · rintro ⟨ys, h1, h2⟩
    obtain ⟨n, h1⟩ := zip2_fuel (R := fun n x y => Ref.dump W C n x .any () = .ok y ()) (fun n m x y hnm h => refdump_le hnm h) (h1.imp_mem (fun x hxm y _ h => (hx x hxm y).1 h))
    exact ⟨n, (step n).2 ⟨ys, h1, h2⟩⟩

theorem dumpList_err {rec : DRec Unit} {xs : List Val} {e : Exc} : dumpList rec xs () = .err e () ↔
    ∃ pre x post ys, xs = pre ++ x :: post ∧ Zip2 (fun x y => rec x .any () = .ok y ()) pre ys ∧ rec x .any () = .err e () := by
  induction xs with
  | nil =>
    constructor
    · intro h; cases h
    · rintro ⟨pre, x, post, ys, h, _⟩; simp at h
  | cons x xs ih =>
    constructor
    · intro h
      unfold dumpList at h
      rw [M.bind_apply] at h
      cases hx : rec x .any () with
      | div => rw [hx] at h; cases h
      | err e' u =>
        rw [hx] at h
        cases h
        exact ⟨[], x, xs, [], rfl, .nil, hx⟩
      | ok y u =>
        rw [hx] at h
        dsimp only at h
        rw [M.bind_apply] at h
        cases hr : dumpList rec xs u with
        | div => rw [hr] at h; cases h
        | ok ys u' => rw [hr] at h; cases h
        | err e' u' =>
          rw [hr] at h
          cases h
          obtain ⟨pre, z, post, ys, rfl, h2, h3⟩ := ih.1 hr
          exact ⟨x :: pre, z, post, y :: ys, rfl, .cons hx h2, h3⟩
    · rintro ⟨pre, z, post, ys, h1, h2, h3⟩
      unfold dumpList
      rw [M.bind_apply]
      cases h2 with
      | nil =>
        simp only [List.nil_append, List.cons.injEq] at h1
        obtain ⟨rfl, rfl⟩ := h1
        rw [h3]
      | cons hx h2 =>
        simp only [List.cons_append, List.cons.injEq] at h1
        obtain ⟨rfl, rfl⟩ := h1
        rw [hx]
        dsimp only
        rw [M.bind_apply, ih.2 ⟨_, z, post, _, rfl, h2, h3⟩]

/-- **C71** It raises what the first element that cannot be dumped raises. -/
theorem C71_list_raises (hb : C.ByType W) {s : DState} (hs : DReachable W C s) {k : SeqKind} {xs : List Val} (hv : Legal W (.seq k xs))
    (hp : DumpedBy W C (.seq k xs) .iterator) {a : Ty} (hn : NoShortcut C a) (e : Exc) :
    (∃ s', DumpRaises W C s (.seq k xs) a e s') ↔ ∃ pre x post ys, xs = pre ++ x :: post ∧ Zip2 (fun x y => ∃ s', Dumps W C s x .any y s') pre ys ∧
      ∃ s', DumpRaises W C s x .any e s' := by
  have hl : ∀ x ∈ xs, Legal W x := fun x hx => hv.inside (.elem .self hx)
  have step : ∀ n, dstep W C (fun c => Pure.pure (mkDataDesc W (W.cls c))) (Ref.dump W C n) .iterator (.seq k xs) a () = .err e () ↔
      dumpList (Ref.dump W C n) xs () = .err e () := by
    intro n
    unfold dstep iteratordump
    dsimp only
    rw [hn.off]
    simp only [Bool.false_eq_true, if_false, iterContents]
    rw [M.bind_apply]
    cases hr : dumpList (Ref.dump W C n) xs () with
    | div => simp
    | ok ys u => simp
    | err e' u => simp
  refine ((dumpRaises_ref_byType hb hs hv a e).trans (refdump_ex hp.pick (.error e))).trans ?_
  constructor
  · rintro ⟨n, h⟩
    obtain ⟨pre, x, post, ys, rfl, h2, h3⟩ := dumpList_err.1 ((step n).1 h)
    exact ⟨pre, x, post, ys, rfl, h2.imp_mem (fun x hxm y _ h => (dumps_ref_byType hb hs (hl x (by simp [hxm])) .any y).2 ⟨n, h⟩),
      (dumpRaises_ref_byType hb hs (hl x (by simp)) .any e).2 ⟨n, h3⟩⟩
  · rintro ⟨pre, x, post, ys, rfl, h2, h3⟩
    obtain ⟨n, h2⟩ := zip2_fuel (R := fun n x y => Ref.dump W C n x .any () = .ok y ()) (fun n m x y hnm h => refdump_le hnm h)
      (h2.imp_mem (fun x hxm y _ h => (dumps_ref_byType hb hs (hl x (by simp [hxm])) .any y).1 h))
    obtain ⟨m, h3⟩ := (dumpRaises_ref_byType hb hs (hl x (by simp)) .any e).1 h3
    refine ⟨max n m, (step _).2 (dumpList_err.2 ⟨pre, x, post, ys, rfl, ?_, ?_⟩)⟩
    · exact h2.mono (fun _ _ h => refdump_le (Nat.le_max_left n m) h)
    · exact refdump_err_le (Nat.le_max_right n m) h3

/-- **C71** A dictionary with its default handler is dumped by dumping each key and each value; if the dumped keys behave, the result has the last value of each key (equal keys in the
dump come from different keys of the dictionary), and an unhashable dumped key makes the dump fail. -/
theorem C71_dict (hb : C.ByType W) {s : DState} (hs : DReachable W C s) {kvs : List (Val × Val)} (hv : Legal W (.dict kvs))
    (hp : DumpedBy W C (.dict kvs) .dict) {a : Ty} (r : Val) (h : ∃ s', Dumps W C s (.dict kvs) a r s') :
    ∃ ps ds, Zip2 (fun p q => (∃ s', Dumps W C s p.1 .any q.1 s') ∧ (∃ s', Dumps W C s p.2 .any q.2 s') ∧ ¬ Unhashable q.1) kvs ps ∧ r = .dict ds ∧
      (KeysBehave ps → LastWins ps ds) := by
  obtain ⟨n, h⟩ := ((dumps_ref_byType hb hs hv a r).trans (refdump_ex hp.pick (.ok r))).1 h
  unfold dstep at h
  dsimp only at h
  have h := R.bind_ok.1 h
  obtain ⟨ds, h1, h2⟩ := h
  cases h2
  obtain ⟨ps, h4, rfl⟩ := dumpDict_ok.1 h1
  refine ⟨ps, _, h4.imp_mem ?_, rfl, fun hk => ?_⟩
  · rintro ⟨k, x⟩ hm q _ ⟨h1, h2, h3⟩
    exact ⟨(dumps_ref_byType hb hs (hv.inside (.key .self hm)) .any _).2 ⟨n, h1⟩, (dumps_ref_byType hb hs (hv.inside (.val .self hm)) .any _).2 ⟨n, h2⟩,
      fun hu => by rw [hu.not] at h3; cases h3⟩
  · obtain ⟨ds, h5, h6⟩ := dictOf_lastWins ps hk
    unfold dictOf at h5
    cases h5
    exact h6

/-- **C71** The fields of a dataclass are dumped with their annotations, under their external names, those equal to their default being left out if `hidedefault` is set. -/
theorem C71_dataclass (hb : C.ByType W) {s s' : DState} (hs : DReachable W C s) {c : Nat} {vals : List (String × Val)} (hv : Legal W (.inst c vals))
    (hp : DumpedBy W C (.inst c vals) .dataclass) {t : Ty} {r : Val} (h : Dumps W C s (.inst c vals) t r s') :
    ∃ kvs, r = .dict kvs ∧ DumpedAs (W.cls c).fields (ToShow C) (dumpKey C) (fun f x y => ∃ s1, Dumps W C s x f.ty y s1) vals kvs :=
  dataclass_dumped hb hs hv hp.pick h

/-- **C71** The attributes of an attrs class. -/
theorem C71_attrs (hb : C.ByType W) {s s' : DState} (hs : DReachable W C s) {c : Nat} {vals : List (String × Val)} (hv : Legal W (.inst c vals))
    (hp : DumpedBy W C (.inst c vals) .attrs) {t : Ty} {r : Val} (h : Dumps W C s (.inst c vals) t r s') :
    ∃ kvs, r = .dict kvs ∧ DumpedAs (W.cls c).fields (ToShowAttr C) (dumpKey C) (fun _ x y => ∃ s1, Dumps W C s x .any y s1) vals kvs :=
  attrs_dumped hb hs hv hp.pick h

/-- **C71** The fields of a NamedTuple. -/
theorem C71_namedtuple (hb : C.ByType W) {s s' : DState} (hs : DReachable W C s) {c : Nat} {vals : List (String × Val)} (hv : Legal W (.nt c vals))
    (hp : DumpedBy W C (.nt c vals) .namedtuple) {t : Ty} {r : Val} (h : Dumps W C s (.nt c vals) t r s') :
    ∃ kvs, r = .dict kvs ∧ DumpedAs (W.cls c).fields (ToShow C) Field.name (fun _ x y => ∃ s1, Dumps W C s x .any y s1) vals kvs :=
  namedtuple_dumped hb hs hv hp.pick h

/-- **C71** A member of an Enum is dumped as its value is. -/
theorem C71_enum (hb : C.ByType W) {s : DState} (hs : DReachable W C s) {e : Nat} {m : String} {x : Val} (hv : Legal W (.enumv e m))
    (hm : aget (W.enm e).members m = some x) (hp : DumpedBy W C (.enumv e m) .enum) (a : Ty) (r : Val) :
    (∃ s', Dumps W C s (.enumv e m) a r s') ↔ ∃ s', Dumps W C s x .any r s' := by
  refine ((dumps_ref_byType hb hs hv a r).trans (refdump_ex hp.pick (.ok r))).trans (Iff.trans ?_ (dumps_ref_byType hb hs (hv.inside (.member .self hm)) .any r).symm)
  refine exists_congr (fun n => ?_)
  unfold dstep
  dsimp only
  rw [hm]
  exact Iff.rfl

/-! ## Examples: the handler `(lambda v: type(v) == str, lambda d, v, t: 5)` -/

theorem Sample.legal_str (x : String) : Legal Sample.WD (.str x) := Legal.of_parts trivial (fun x hx => (by cases hx))
theorem Sample.legal_ab : Legal Sample.WD (.list [.str "a", .str "b"]) := by
  refine Legal.of_parts (fun h => absurd h (by decide)) (fun x hx => ?_)
  cases hx with
  | elem hx =>
    simp only [List.mem_cons, List.not_mem_nil, or_false] at hx
    rcases hx with rfl | rfl <;> exact Sample.legal_str _

/-- `d.dump(["a", "b"]) == [5, 5]` on a dumper with any history, with any annotation, e.g. `List[str]`. -/
example (s : DState) (hs : DReachable Sample.WD (Sample.DD 0) s) (a : Ty) : ∃ s', Dumps Sample.WD (Sample.DD 0) s (.list [.str "a", .str "b"]) a (.list [.int 5, .int 5]) s' :=
  (C71_list Sample.dd_byType hs Sample.legal_ab ⟨4, .isIter, rfl, rfl⟩ (Or.inr (by intro c h hs he; cases he; exact fun h => by cases h)) _).2
    ⟨_, .cons ((C53_returns Sample.dd_byType hs (Sample.legal_str _) (i := 0) (k := 0) (c := .custom 0) rfl rfl rfl _).2 rfl)
      (.cons ((C53_returns Sample.dd_byType hs (Sample.legal_str _) (i := 0) (k := 0) (c := .custom 0) rfl rfl rfl _).2 rfl) .nil), rfl⟩
/-- `d.dump({"a": "b"}) == {5: 5}` -/
example : (dump Sample.WD (Sample.DD 0) 5 (.dict [(.str "a", .str "b"), (.int 1, .str "c")]) .any {}).val? = some (.dict [(.int 5, .int 5), (.int 1, .int 5)]) := by decide
example : DumpedBy Sample.WD (Sample.DD 0) (.dict [(.str "a", .str "b")]) .dict := ⟨6, .isDict, rfl, rfl⟩

/-- Why the shortcut must not apply: when the user's handler is added behind the handler of the basic types, lists annotated with a basic type are copied without
asking it.  `d.handlers.insert(1, (lambda v: type(v) == UUID, lambda d, v, t: None))`, a list of UUIDs, annotated as a list of str. -/
theorem C71_shortcut_counterexample : ∃ (W : World) (C : DConfig) (x : Val), C.ByType W ∧ Legal W (.list [x]) ∧ DumpedBy W C (.list [x]) .iterator ∧
    DumpedBy W C x (.custom 0) ∧ (∃ s', Dumps W C {} x .any .none s') ∧ (∃ s', Dumps W C {} (.list [x]) (.coll .list (.prim .str)) (.list [x]) s') ∧
    ∃ s', Dumps W C {} (.list [x]) .any (.list [.none]) s' := by
  let W : World := { Sample.W with
    dumpCond := fun _ v => .ok (typeOf v == .strcons "UUID")
    dumpCustom := fun _ _ _ => .ret .none }
  let C : DConfig := { handlers := (.isBasic, .identity) :: (.custom 0, .custom 0) :: defaultDHandlers }
  refine ⟨W, C, .strobj "UUID" "x", ⟨?_, ?_⟩, ?_, ⟨5, .isIter, rfl, rfl⟩, ⟨1, .custom 0, rfl, rfl⟩, ⟨_, 3, rfl⟩, ⟨_, 3, rfl⟩, ⟨_, 3, rfl⟩⟩
  · intro p hp v w hv hw h
    by_cases hc : ∃ i, p.1 = .custom i
    · obtain ⟨i, hc⟩ := hc
      rw [hc]
      show Except.ok (typeOf v == .strcons "UUID") = Except.ok (typeOf w == .strcons "UUID")
      rw [h]
    · exact dEvalCond_typeOf (fun i hi => hc ⟨i, hi⟩) hv hw h
  · intro p hp i _ v t _ x u ha
    cases ha
  · refine Legal.of_parts (fun h => absurd h (by decide)) (fun x hx => ?_)
    cases hx with
    | elem hx =>
      simp only [List.mem_cons, List.not_mem_nil, or_false] at hx
      subst hx
      exact Legal.of_parts trivial (fun x hx => (by cases hx))

end TL
