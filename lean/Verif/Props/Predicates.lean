import Verif.Props.Dispatch
import Verif.Props.Containers
import Verif.Sample
/-!
# C46: the predicates of typechecks.py and the default dispatch, spelled out
-/

namespace TL

variable {W : World} {C : Config}

/-- Which default handler is responsible for which form of type (docs/supported_types.md). -/
inductive Served (W : World) (C : Config) : Ty → Handler → Prop
  | none : Served W C (.prim .none) .noneload
  | basic {p} : p ∈ C.basictypes → p ≠ .none → Served W C (.prim p) .basicload
  | union {ts} : Served W C (.union ts) .unionload
  | enum {e} : Served W C (.enum e) .enumload
  | list {a} : Served W C (.coll .list a) .listload
  | set {a} : Served W C (.coll .set a) .setload
  | frozenset {a} : Served W C (.coll .frozenset a) .frozensetload
  | tuple_of {a} : Served W C (.coll .tuple a) .tupleload
  | tuple {ts} : Served W C (.tuple ts) .tupleload
  | dict {a b} : Served W C (.dict a b) .dictload
  | bare_list : Served W C (.bare "list") .listload
  | bare_set : Served W C (.bare "set") .setload
  | bare_frozenset : Served W C (.bare "frozenset") .frozensetload
  | bare_tuple : Served W C (.bare "tuple") .tupleload
  | bare_dict : Served W C (.bare "dict") .dictload
  | namedtuple {c} : (W.cls c).kind = .namedtuple → Served W C (.obj c) .namedtupleload
  | dataclass {c} : (W.cls c).kind = .dataclass → Served W C (.obj c) .dataclassload
  | attrs {c} : (W.cls c).kind = .attrs → Served W C (.obj c) .attrload
  | typeddict {c} : (W.cls c).kind = .typeddict → Served W C (.obj c) .typeddictload
  | forwardref {n} : Served W C (.fref n) .forwardrefload
  | literal {vs} : Served W C (.lit vs) .literalload
  | datetime {k} : Served W C (.dt k) .datetimeload
  | pattern {a} : Served W C (.pattern a) .patternload
  | timedelta : Served W C .timedelta .timedeltaload
  | strconstructed {c} : c ∈ C.strconstructed → Served W C (.strcons c) .strconstructload
  | any : Served W C .any .anyload
  | newtype {n t} : Served W C (.newtype n t) .newtypeload

theorem pick_iff_index {t : Ty} {h : Handler} : pick W C t = .ok h ↔ ∃ i c, index W C t = .ok i ∧ C.handlers[i]? = some (c, h) := by
  unfold pick
  cases hi : index W C t with
  | error e => simp
  | ok i =>
    simp only [Except.ok.injEq]
    cases hp : C.handlers[i]? with
    | none => simp [hp]
    | some p =>
      simp only
      constructor
      · intro h; cases h; exact ⟨i, p.1, rfl, by rw [hp]⟩
      · rintro ⟨j, c, rfl, h2⟩; rw [hp] at h2; cases h2; rfl

theorem served_pick (hd : C.Default) {t : Ty} {h : Handler} (hs : Served W C t h) : pick W C t = .ok h := by
  cases hs with
  | none => exact pick_none hd
  | basic hp hn => exact pick_basic hd hp hn
  | union => exact pick_union hd _
  | enum => exact pick_enum hd _
  | list => exact pick_coll hd .list _
  | set => exact pick_coll hd .set _
  | frozenset => exact pick_coll hd .frozenset _
  | tuple_of => exact pick_coll hd .tuple _
  | tuple => exact pick_tuple hd _
  | dict => exact pick_dict hd _ _
  | bare_list => rw [pick_bare hd]; rfl
  | bare_set => rw [pick_bare hd]; rfl
  | bare_frozenset => rw [pick_bare hd]; rfl
  | bare_tuple => rw [pick_bare hd]; rfl
  | bare_dict => rw [pick_bare hd]; rfl
  | namedtuple hk => rw [pick_obj hd, hk]; rfl
  | dataclass hk => rw [pick_obj hd, hk]; rfl
  | attrs hk => rw [pick_obj hd, hk]; rfl
  | typeddict hk => rw [pick_obj hd, hk]; rfl
  | forwardref => exact pick_fref hd _
  | literal => exact pick_lit hd _
  | datetime => exact pick_dt hd _
  | pattern => exact pick_pattern hd _
  | timedelta => exact pick_timedelta hd
  | strconstructed hc => exact pick_strcons hd hc
  | any => exact pick_any hd
  | newtype => exact pick_newtype hd _ _

/-- **C46** (dispatch table). With the default handlers, `Loader.index` finds the handler responsible for the form of the type, and no other. -/
theorem C46_table (hd : C.Default) (t : Ty) (h : Handler) :
    (∃ i c, index W C t = .ok i ∧ C.handlers[i]? = some (c, h)) ↔ Served W C t h := by
  rw [← pick_iff_index]
  constructor
  · intro hp
    have key : ∀ {t h'}, Served W C t h' → pick W C t = .ok h → Served W C t h := by
      intro t h' hs hp
      rw [served_pick hd hs] at hp; cases hp; exact hs
    cases t with
    | prim p =>
      by_cases hn : p = .none
      · subst hn; exact key .none hp
      by_cases hb : p ∈ C.basictypes
      · exact key (.basic hb hn) hp
      · rw [pick_prim_none hd hb hn] at hp; cases hp
    | any => exact key .any hp
    | lit vs => exact key .literal hp
    | enum e => exact key .enum hp
    | coll k a =>
      cases k with
      | list => exact key .list hp
      | tuple => exact key .tuple_of hp
      | set => exact key .set hp
      | frozenset => exact key .frozenset hp
    | tuple ts => exact key .tuple hp
    | dict a b => exact key .dict hp
    | bare g =>
      have hb := pick_bare (W := W) hd g
      rw [hp] at hb
      by_cases h1 : g = "tuple"
      · subst h1; exact key .bare_tuple hp
      rw [if_neg h1] at hb
      by_cases h2 : g = "list"
      · subst h2; exact key .bare_list hp
      rw [if_neg h2] at hb
      by_cases h3 : g = "dict"
      · subst h3; exact key .bare_dict hp
      rw [if_neg h3] at hb
      by_cases h4 : g = "set"
      · subst h4; exact key .bare_set hp
      rw [if_neg h4] at hb
      by_cases h5 : g = "frozenset"
      · subst h5; exact key .bare_frozenset hp
      rw [if_neg h5] at hb
      cases hb
    | union ts => exact key .union hp
    | obj c =>
      cases hk : (W.cls c).kind with
      | namedtuple => exact key (.namedtuple hk) hp
      | dataclass => exact key (.dataclass hk) hp
      | attrs => exact key (.attrs hk) hp
      | typeddict => exact key (.typeddict hk) hp
    | fref n => exact key .forwardref hp
    | newtype n t => exact key .newtype hp
    | dt k => exact key .datetime hp
    | timedelta => exact key .timedelta hp
    | pattern a => exact key .pattern hp
    | strcons c =>
      by_cases hc : c ∈ C.strconstructed
      · exact key (.strconstructed hc) hp
      · rw [pick_strcons_none hd hc] at hp; cases hp
    | «opaque» c => rw [pick_opaque hd] at hp; cases hp
  · exact served_pick hd

/-- **C46** (predicates on generics). `is_list`, `is_set`, `is_frozenset`, `is_tuple` and `is_dict` hold of the parametrised types of their kind and of the bare ones. -/
theorem C46_generics (t : Ty) :
    (is_list t = true ↔ t = .bare "list" ∨ ∃ a, t = .coll .list a) ∧
    (is_set t = true ↔ t = .bare "set" ∨ ∃ a, t = .coll .set a) ∧
    (is_frozenset t = true ↔ t = .bare "frozenset" ∨ ∃ a, t = .coll .frozenset a) ∧
    (is_tuple t = true ↔ t = .bare "tuple" ∨ (∃ a, t = .coll .tuple a) ∨ ∃ ts, t = .tuple ts) ∧
    (is_dict t = true ↔ t = .bare "dict" ∨ ∃ a b, t = .dict a b) := by
  cases t with
  | coll k a => cases k <;> simp [is_list, is_set, is_frozenset, is_tuple, is_dict]
  | _ => simp [is_list, is_set, is_frozenset, is_tuple, is_dict]

/-- **C46** (predicates on other forms). -/
theorem C46_forms (t : Ty) :
    (is_nonetype t = true ↔ t = .prim .none) ∧
    (is_union t = true ↔ ∃ ts, t = .union ts) ∧
    (is_enum t = true ↔ ∃ e, t = .enum e) ∧
    (is_forwardref t = true ↔ ∃ n, t = .fref n) ∧
    (is_newtype t = true ↔ ∃ n u, t = .newtype n u) ∧
    (is_literal t = true ↔ ∃ vs, t = .lit vs) ∧
    (is_pattern t = true ↔ ∃ a, t = .pattern a) ∧
    (is_any t = true ↔ t = .any) := by
  refine ⟨by simp [is_nonetype], ?_⟩
  cases t <;> simp [is_union, is_enum, is_forwardref, is_newtype, is_literal, is_pattern, is_any]

/-- **C46** (predicates on classes). -/
theorem C46_classes (t : Ty) :
    (is_namedtuple W t = true ↔ ∃ c, t = .obj c ∧ (W.cls c).kind = .namedtuple) ∧
    (is_dataclass W t = true ↔ ∃ c, t = .obj c ∧ (W.cls c).kind = .dataclass) ∧
    (is_attrs W t = true ↔ ∃ c, t = .obj c ∧ (W.cls c).kind = .attrs) ∧
    (is_typeddict W t = true ↔ ∃ c, t = .obj c ∧ (W.cls c).kind = .typeddict) := by
  cases t <;> simp [is_namedtuple, is_dataclass, is_attrs, is_typeddict, is_kind]

/-- **C46** (`is_optional`): the unions of two members one of which is None. -/
theorem C46_is_optional (t : Ty) : is_optional t = true ↔ ∃ a, t = .union [a, .prim .none] ∨ t = .union [.prim .none, a] := by
  constructor
  · intro h
    cases t with
    | union ts =>
      simp only [is_optional, Bool.and_eq_true, beq_iff_eq, List.contains_iff_mem] at h
      match ts, h.1, h.2 with
      | [a, b], _, hm =>
        simp only [List.mem_cons, List.not_mem_nil, or_false] at hm
        rcases hm with rfl | rfl
        · exact ⟨b, Or.inr rfl⟩
        · exact ⟨a, Or.inl rfl⟩
    | _ => simp [is_optional] at h
  · rintro ⟨a, rfl | rfl⟩ <;> simp [is_optional]

/-- **C46** (`uniontypes`): the members, as written. -/
theorem C46_uniontypes (ts : List Ty) : uniontypes (.union ts) = some ts := rfl

/-- **C46** (`literalvalues`): the values of the Literal, without repetitions (`==`). -/
theorem C46_literalvalues (vs : List Val) : ∃ ws, literalvalues (.lit vs) = some ws ∧ ws.Pairwise (fun a b => pyEq a b = false) ∧
    (∀ w ∈ ws, w ∈ vs) ∧ ∀ v ∈ vs, v ∈ ws ∨ ∃ w ∈ ws, pyEq w v = true := by
  refine ⟨vs.foldl setAdd [], rfl, ?_⟩
  obtain ⟨h1, h2, _, h4⟩ := setAdd_foldl_spec vs [] .nil
  exact ⟨h1, fun w hw => (h2 w hw).resolve_left (by simp), h4⟩

/-- ... and only of Literals. -/
theorem C46_literalvalues_only {t : Ty} (h : is_literal t = false) : literalvalues t = none := by
  cases t <;> first | rfl | cases h

/-- **C46** (`discriminatorliterals`): the fields that the class itself annotates with a Literal (for a TypedDict: not wrapped in NotRequired, unless the loader has rewritten the
annotations), with the values of the Literal. -/
theorem C46_discriminatorliterals (rew : List Nat) (c : Nat) (k : String) (ws : List Val) : (k, ws) ∈ discriminatorliterals W rew (.obj c) ↔
    ∃ f ∈ (W.cls c).fields, f.name = k ∧ f.declared = true ∧ (f.notRequired = true → c ∈ rew) ∧ literalvalues f.ty = some ws := by
  simp only [discriminatorliterals, List.mem_filterMap]
  constructor
  · rintro ⟨f, hf, h⟩
    split at h
    · cases h
    · rename_i hc
      cases hl : literalvalues f.ty with
      | none => rw [hl] at h; cases h
      | some vs =>
        rw [hl] at h
        simp only [Option.map_some, Option.some.injEq, Prod.mk.injEq] at h
        refine ⟨f, hf, h.1, ?_, ?_, by rw [hl, h.2]⟩ <;> simp_all
  · rintro ⟨f, hf, rfl, hd, hn, hl⟩
    refine ⟨f, hf, ?_⟩
    rw [if_neg (by simp_all), hl]
    rfl

/-- `Tuple[int, ...]` goes to the tuple handler, position 4 of the list. -/
example : index Sample.W Sample.C (.coll .tuple (.prim .int)) = .ok 4 ∧ Sample.C.handlers[4]? = some (.isTuple, .tupleload) := ⟨rfl, rfl⟩
example : Served Sample.W Sample.C (.coll .tuple (.prim .int)) .tupleload := .tuple_of
example : is_optional (.union [.prim .none, .coll .list .any]) = true := by decide
example : is_optional (.union [.prim .none, .prim .int, .prim .str]) = false := by decide
example : literalvalues (.lit [.int 1, .bool true, .str "a"]) = some [.int 1, .str "a"] := by decide

end TL
