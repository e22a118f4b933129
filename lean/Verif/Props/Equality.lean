import Verif.Lemmas.Equality
import Verif.Props.Dump
import Verif.Props.Prims
import Verif.Props.Simple
/-!
# Equal values: C39, C26, C27, C17 in terms of `Equal`

The theorems about defaults, literals, enum members and keys, with Python's `==` as specified in `Spec/Equality.lean`.
-/

namespace TL

variable {W : World}

/-! ## `==` is reflexive, but for NaN -/

theorem Equal.refl_bounded (n : Nat) : ∀ v : Val, sizeOf v < n → (∀ x, Inside W v x → x ≠ .float .nan) → Equal v v := by
  induction n with
  | zero => intro v h; omega
  | succ n ih =>
  intro v hn hv
  have hp : ∀ x, PartOf W v x → sizeOf x < sizeOf v → Equal x x := fun x hx hs => ih x (by omega) (fun y hy => hv y (hy.trans hx.inside))
  have hl : ∀ {α : Type} (l : List α), l = (l.map (fun x => (x, x))).map (·.1) ∧ l = (l.map (fun x => (x, x))).map (·.2) := fun l => by
    simp [Function.comp_def]
  have hm : ∀ {α : Type} (l : List α) (x : α), x ∈ l ↔ ∃ q ∈ l.map (fun x => (x, x)), x = q.1 := fun l x => by simp
  have hm' : ∀ {α : Type} (l : List α) (x : α), x ∈ l ↔ ∃ q ∈ l.map (fun x => (x, x)), x = q.2 := fun l x => by simp
  cases v with
  | none => exact .single .none
  | bool b => cases b <;> [exact .num .false .false; exact .num .true .true]
  | int i => exact .num .int .int
  | float f =>
    have : f ≠ .nan := fun h => hv _ .self (by rw [h])
    exact .num (.float this) (.float this)
  | str s => exact .single .str
  | bytes s => exact .single .bytes
  | enumv e m => exact .single .enum
  | date => exact .single .date
  | time => exact .single .time
  | datetime => exact .single .datetime
  | timedelta => exact .single .timedelta
  | strobj => exact .single .strobj
  | «opaque» => exact .single .opaque
  | seq k xs =>
    have he : ∀ q ∈ xs.map (fun x => (x, x)), Equal q.1 q.2 := by
      intro q hq; obtain ⟨x, hx, rfl⟩ := List.mem_map.1 hq; exact hp x (.elem hx) (sizeOf_elem hx)
    cases k with
    | list => exact .list (by rw [← (hl xs).1]) (by rw [← (hl xs).2]) he
    | tuple => exact .tuple (by rw [← (hl xs).1]; exact .tuple) (by rw [← (hl xs).2]; exact .tuple) he
    | set => exact .set .set .set (hm xs) (hm' xs) he
    | frozenset => exact .set .frozenset .frozenset (hm xs) (hm' xs) he
  | dict kvs =>
    refine .dict rfl rfl (hm kvs) (hm' kvs) (fun q hq => ?_) (fun q hq => ?_)
    · obtain ⟨x, hx, rfl⟩ := List.mem_map.1 hq; exact hp _ (.key hx) (sizeOf_dict hx).1
    · obtain ⟨x, hx, rfl⟩ := List.mem_map.1 hq; exact hp _ (.val hx) (sizeOf_dict hx).2
  | ns kvs =>
    refine .ns (l := kvs.map (fun p => (p.1, p.2, p.2))) rfl rfl (by simp) (by simp) (fun q hq => ?_)
    obtain ⟨x, hx, rfl⟩ := List.mem_map.1 hq; exact hp _ (.arg hx) (sizeOf_ns hx)
  | inst c fs =>
    refine .inst (c := c) (l := fs.map (fun p => (p.1, p.2, p.2))) (by simp [Function.comp_def]) (by simp [Function.comp_def]) (fun q hq => ?_)
    obtain ⟨x, hx, rfl⟩ := List.mem_map.1 hq; exact hp _ (.attr hx) (sizeOf_inst hx)
  | nt c fs =>
    refine .tuple (l := (fs.map (·.2)).map (fun x => (x, x))) (by rw [← (hl _).1]; exact .nt) (by rw [← (hl _).2]; exact .nt) (fun q hq => ?_)
    obtain ⟨x, hx, rfl⟩ := List.mem_map.1 hq
    obtain ⟨p, hx', rfl⟩ := List.mem_map.1 hx
    exact hp _ (.item hx') (sizeOf_nt hx')
  | pattern s => exact .pattern (hp _ .source (by simp))

theorem Equal.refl (v : Val) (hv : ∀ x, Inside W v x → x ≠ .float .nan) : Equal v v := Equal.refl_bounded (sizeOf v + 1) v (by omega) hv

/-! ## hidedefault -/

section dump
variable {C : DConfig}

theorem DumpedAs.imp_shown {fields : List Field} {P Q : Field → Val → Prop} {key : Field → String} {dumped : Field → Val → Val → Prop}
    {vals : List (String × Val)} {kvs : List (Val × Val)} (hpq : ∀ f ∈ fields, ∀ x, (f.name, x) ∈ vals → (P f x ↔ Q f x))
    (h : DumpedAs fields P key dumped vals kvs) : DumpedAs fields Q key dumped vals kvs := by
  refine ⟨fun k => (h.1 k).trans ?_, fun f hf x hx hq => h.2.1 f hf x hx ((hpq f hf x hx).2 hq), h.2.2⟩
  constructor
  · rintro ⟨f, hf, x, hx, hp, hk⟩; exact ⟨f, hf, x, hx, (hpq f hf x hx).1 hp, hk⟩
  · rintro ⟨f, hf, x, hx, hp, hk⟩; exact ⟨f, hf, x, hx, (hpq f hf x hx).2 hp, hk⟩

/-- **C39** Dataclasses, with equality spelled out: the dump shows a field iff it has no default or its value is not equal (Python's `==`) to the default. -/
theorem C39_dataclass_equal (hd : C.Default) {s s' : DState} (hs : DReachable W C s) {c : Nat} {vals : List (String × Val)} (hv : Legal W (.inst c vals))
    (hk : (W.cls c).kind = .dataclass) (hdef : ∀ f ∈ (W.cls c).fields, ∀ d, f.default = some d → Legal W d) {t : Ty} {r : Val}
    (h : Dumps W C s (.inst c vals) t r s') :
    ∃ kvs, r = .dict kvs ∧ DumpedAs (W.cls c).fields (fun f x => C.hidedefault = true → ∀ d, f.default = some d → ¬ Equal d x) (dumpKey C)
      (fun f x y => ∃ s1, Dumps W C s x f.ty y s1) vals kvs := by
  obtain ⟨kvs, hr, hda⟩ := C39_dataclass hd hs hv hk h
  refine ⟨kvs, hr, hda.imp_shown (fun f hf x hx => ?_)⟩
  refine imp_congr_right fun _ => forall_congr' fun d => imp_congr_right fun he => ?_
  rw [← pyEq_iff_equal (hdef f hf d he) (hv.inside (.attr .self hx))]; simp

/-- **C39** attrs classes, with equality spelled out; fields with `repr=False` are never shown. -/
theorem C39_attrs_equal (hd : C.Default) {s s' : DState} (hs : DReachable W C s) {c : Nat} {vals : List (String × Val)} (hv : Legal W (.inst c vals))
    (hk : (W.cls c).kind = .attrs) (hdef : ∀ f ∈ (W.cls c).fields, ∀ d, f.default = some d → Legal W d) {t : Ty} {r : Val}
    (h : Dumps W C s (.inst c vals) t r s') :
    ∃ kvs, r = .dict kvs ∧ DumpedAs (W.cls c).fields (fun f x => f.repr = true ∧ (C.hidedefault = true → ∀ d, f.default = some d → ¬ Equal x d)) (dumpKey C)
      (fun _ x y => ∃ s1, Dumps W C s x .any y s1) vals kvs := by
  obtain ⟨kvs, hr, hda⟩ := C39_attrs hd hs hv hk h
  refine ⟨kvs, hr, hda.imp_shown (fun f hf x hx => ?_)⟩
  refine and_congr Iff.rfl (imp_congr_right fun _ => forall_congr' fun d => imp_congr_right fun he => ?_)
  rw [← pyEq_iff_equal (hv.inside (.attr .self hx)) (hdef f hf d he)]; simp

/-- **C39** NamedTuples, with equality spelled out. -/
theorem C39_namedtuple_equal (hd : C.Default) {s s' : DState} (hs : DReachable W C s) {c : Nat} {vals : List (String × Val)} (hv : Legal W (.nt c vals))
    (hdef : ∀ f ∈ (W.cls c).fields, ∀ d, f.default = some d → Legal W d) {t : Ty} {r : Val} (h : Dumps W C s (.nt c vals) t r s') :
    ∃ kvs, r = .dict kvs ∧ DumpedAs (W.cls c).fields (fun f x => C.hidedefault = true → ∀ d, f.default = some d → ¬ Equal d x) Field.name
      (fun _ x y => ∃ s1, Dumps W C s x .any y s1) vals kvs := by
  obtain ⟨kvs, hr, hda⟩ := C39_namedtuple hd hs hv h
  refine ⟨kvs, hr, hda.imp_shown (fun f hf x hx => ?_)⟩
  refine imp_congr_right fun _ => forall_congr' fun d => imp_congr_right fun he => ?_
  rw [← pyEq_iff_equal (hdef f hf d he) (hv.inside (.item .self hx))]; simp

/-- **C39** In particular a field that holds its default (in which there is no NaN) is hidden. -/
theorem C39_default_hidden (hd : C.Default) (hh : C.hidedefault = true) {s s' : DState} (hs : DReachable W C s) {c : Nat} {vals : List (String × Val)}
    (hv : Legal W (.inst c vals)) (hdef : ∀ f ∈ (W.cls c).fields, ∀ d, f.default = some d → Legal W d) {f : Field} {d : Val}
    (hfd : f.default = some d) (hx : (f.name, d) ∈ vals) (hnan : ∀ x, Inside W d x → x ≠ .float .nan)
    (hname : ∀ g ∈ (W.cls c).fields, dumpKey C g = dumpKey C f → g = f) {t : Ty} {r : Val} (h : Dumps W C s (.inst c vals) t r s') :
    ∃ kvs, r = .dict kvs ∧ Val.str (dumpKey C f) ∉ kvs.map (·.1) := by
  have hone : ∀ x, (f.name, x) ∈ vals → x = d := by
    intro x hx'
    have hnd : (vals.map (·.1)).Nodup := hv.top.2.2
    have h1 := aget_of_mem hnd hx
    have h2 := aget_of_mem hnd hx'
    rw [h1] at h2; cases h2; rfl
  rcases hv.top.1 with hk | hk
  · obtain ⟨kvs, hr, hda⟩ := C39_dataclass_equal hd hs hv hk hdef h
    refine ⟨kvs, hr, fun hm => ?_⟩
    obtain ⟨g, hg, x, hgx, hs', he⟩ := (hda.1 _).1 hm
    cases hname g hg (by injection he with he; exact he.symm)
    rw [hone x hgx] at hs'
    exact hs' hh d hfd (Equal.refl d hnan)
  · obtain ⟨kvs, hr, hda⟩ := C39_attrs_equal hd hs hv hk hdef h
    refine ⟨kvs, hr, fun hm => ?_⟩
    obtain ⟨g, hg, x, hgx, hs', he⟩ := (hda.1 _).1 hm
    cases hname g hg (by injection he with he; exact he.symm)
    rw [hone x hgx] at hs'
    exact hs'.2 hh d hfd (Equal.refl d hnan)

end dump

/-! ## Literals, enum members, keys -/

variable {C : Config}

/-- **C26** Loading into `Literal[vs]` returns the value itself iff it equals (Python's `==`) one of the literals. -/
theorem C26_equal {s : LState} {vs : List Val} (hd : C.Usual W (.lit vs)) (hs : Reachable W C s) (hvs : ∀ l ∈ vs, Legal W l) {v : Val} (hv : Legal W v) (r : Val) :
    (∃ s', Loads W C s v (.lit vs) r s') ↔ r = v ∧ ∃ l ∈ vs, Equal l v := by
  rw [C26_literal hd hs]
  refine and_congr Iff.rfl (exists_congr fun l => and_congr_right fun hl => ?_)
  exact pyEq_iff_equal (hvs l hl) hv

/-- **C27** (first member). A value that is not itself a member and equals (Python's `==`) some member's value loads to the first such member. -/
theorem C27_equal {s : LState} {e : Nat} (hd : C.Usual W (.enum e)) (hs : Reachable W C s) (he : ∀ p ∈ (W.enm e).members, Legal W p.2) {v : Val} (hv : Legal W v)
    {i : Nat} {n : String} {x : Val} (hi : (W.enm e).members[i]? = some (n, x)) (hx : Equal x v)
    (hfirst : ∀ j < i, ∀ p : String × Val, (W.enm e).members[j]? = some p → ¬ Equal p.2 v) (hm : ∀ p ∈ (W.enm e).members, v ≠ .enumv e p.1) :
    ∃ s', Loads W C s v (.enum e) (.enumv e n) s' := by
  refine (C27_enum_first hd hs hi).2 ((pyEq_iff_equal (he _ (List.mem_of_getElem? hi)) hv).2 hx) (fun j hj p hp => ?_) hm
  have := mt (pyEq_iff_equal (he _ (List.mem_of_getElem? hp)) hv).1 (hfirst j hj p hp)
  simpa using this

/-- **C17** The keys that loads return, when they are Python values, behave as keys: so later pairs override earlier ones with equal keys. -/
theorem KeysBehave.of_legal {ps : List (Val × Val)} (h : ∀ p ∈ ps, Legal W p.1) : KeysBehave ps := by
  intro a ha b hb c hc h1 h2
  have h1 := (pyEq_iff_equal (h a ha) (h c hc)).1 h1
  have h2 := (pyEq_iff_equal (h b hb) (h c hc)).1 h2
  exact (pyEq_iff_equal (h a ha) (h b hb)).2 (h1.trans h2.symm)

/-- **C17** Last one wins, without assumptions on `==`. -/
theorem C17_last_wins_legal {s s' : LState} {kt vt : Ty} (hd : C.Usual W (.dict kt vt)) (hs : Reachable W C s) {v r : Val} (hsafe : DictSafe C kt vt)
    (huk : C.Usual W kt) (huv : C.Usual W vt) (h : Loads W C s v (.dict kt vt) r s') :
    ∃ kvs ps ds, DictData C v kvs ∧ Zip2 (PairLoads W C s kt vt) kvs ps ∧ r = .dict ds ∧ ((∀ p ∈ ps, Legal W p.1) → LastWins ps ds) := by
  obtain ⟨kvs, ps, ds, h1, h2, h3, h4⟩ := C17_last_wins hd hs hsafe huk huv h
  exact ⟨kvs, ps, ds, h1, h2, h3, fun hl => h4 (.of_legal hl)⟩

/-! ## Examples -/

namespace Sample

/-- `class Opt: tags: dict = field(default_factory=dict); ids: set = field(default_factory=lambda: {1, 2})` (dataclass) -/
def clsOpt : ClassDef :=
  { kind := .dataclass, name := "Opt", fields :=
    [ { name := "tags", ty := .any, default := some (.dict []) }, { name := "ids", ty := .any, default := some (.set [.int 1, .int 2]) } ] }
/-- The sample world with that class. -/
def WOpt : World := { Sample.W with cls := fun _ => clsOpt }

theorem legal_ints {k : SeqKind} {xs : List Val} (hx : ∀ x ∈ xs, typeOf x = .prim .int) (hd : Distinct xs) (hh : ∀ x ∈ xs, WOpt.hash x = true) : Legal WOpt (.seq k xs) := by
  refine .of_parts (fun _ => ⟨hd, hh⟩) (fun x h => ?_)
  cases h with
  | elem h => exact DumpPrim.legal_basic (hx x h)

theorem legal_emptyDict : Legal WOpt (.dict []) := by
  refine .of_parts ⟨by simp [Distinct], by simp⟩ (fun x h => ?_)
  cases h <;> contradiction

theorem legal_opt {xs : List Val} (h : Legal WOpt (.seq .set xs)) : Legal WOpt (.inst 0 [("tags", .dict []), ("ids", .set xs)]) := by
  refine .of_parts ⟨Or.inl rfl, rfl, by simp⟩ (fun x hx => ?_)
  cases hx with
  | attr hx =>
    simp only [List.mem_cons, Prod.mk.injEq, List.not_mem_nil, or_false] at hx
    rcases hx with ⟨_, rfl⟩ | ⟨_, rfl⟩
    · exact legal_emptyDict
    · exact h

theorem legal_defaults : ∀ f ∈ (WOpt.cls 0).fields, ∀ d, f.default = some d → Legal WOpt d := by
  intro f hf d hd
  change f ∈ clsOpt.fields at hf
  simp only [clsOpt, List.mem_cons, List.not_mem_nil, or_false] at hf
  rcases hf with rfl | rfl <;> cases hd
  · exact legal_emptyDict
  · exact legal_ints (by simp [typeOf]) (by unfold Distinct; decide) (by decide)

end Sample

/-- C39: a dictionary and a set equal to the defaults, the set with its elements in another order: nothing is shown. -/
example : Legal Sample.WOpt (.inst 0 [("tags", .dict []), ("ids", .set [.int 2, .int 1])]) ∧ (Sample.WOpt.cls 0).kind = .dataclass ∧
    (∀ f ∈ (Sample.WOpt.cls 0).fields, ∀ d, f.default = some d → Legal Sample.WOpt d) ∧
    ∃ s', Dumps Sample.WOpt Sample.D {} (.inst 0 [("tags", .dict []), ("ids", .set [.int 2, .int 1])]) .any (.dict []) s' :=
  ⟨Sample.legal_opt (Sample.legal_ints (by simp [typeOf]) (by unfold Distinct; decide) (by decide)), rfl, Sample.legal_defaults, _, 5, rfl⟩
/-- C39: with another element the set is shown. -/
example : ∃ s', Dumps Sample.WOpt Sample.D {} (.inst 0 [("tags", .dict []), ("ids", .set [.int 2, .int 3])]) .any
    (.dict [(.str "ids", .list [.int 2, .int 3])]) s' := ⟨_, 5, rfl⟩
/-- C26, C27: `True` equals the literal 1 and the value 1 of the member `E.A`. -/
example : Equal (.int 1) (.bool true) := .num .int (by rw [Int.one_mul]; exact .true)
example : ∃ s', Loads Sample.W Sample.C (fresh []) (.bool true) (.lit [.int 1, .str "a"]) (.bool true) s' :=
  (C26_equal (s := fresh []) (show Sample.C.Default from rfl).usual (.new _ _) (fun l hl => by
    simp only [List.mem_cons, List.not_mem_nil, or_false] at hl
    rcases hl with rfl | rfl
    · exact DumpPrim.legal_basic (p := .int) rfl
    · exact DumpPrim.legal_basic (p := .str) rfl) (DumpPrim.legal_basic (p := .bool) rfl) _).2 ⟨rfl, .int 1, by simp, .num .int (by rw [Int.one_mul]; exact .true)⟩
example : ∃ s', Loads Sample.W Sample.C (fresh []) (.bool true) (.enum 0) (.enumv 0 "A") s' :=
  C27_equal (s := fresh []) (show Sample.C.Default from rfl).usual (.new _ _) (fun p hp => by
    change p ∈ [("A", Val.int 1), ("B", .str "b")] at hp
    simp only [List.mem_cons, List.not_mem_nil, or_false] at hp
    rcases hp with rfl | rfl
    · exact DumpPrim.legal_basic (p := .int) rfl
    · exact DumpPrim.legal_basic (p := .str) rfl) (DumpPrim.legal_basic (p := .bool) rfl) (i := 0) rfl (.num .int (by rw [Int.one_mul]; exact .true)) (fun j hj => by omega)
    (fun p _ h => by cases h)

end TL
