import Verif.Lemmas.Step
/-!
# The step relation for the default handlers
-/

namespace TL

variable {W : World} {C : Config} {G : Ty → Prop} {F : String → Ty → Prop}

/-- The handler serving a type with the default handlers. -/
inductive Picked (W : World) (C : Config) : Ty → Handler → Prop
  | none : Picked W C (.prim .none) .noneload
  | basic {p} : p ∈ C.basictypes → p ≠ .none → Picked W C (.prim p) .basicload
  | union {ts} : Picked W C (.union ts) .unionload
  | enum {e} : Picked W C (.enum e) .enumload
  | tuple {ts} : Picked W C (.tuple ts) .tupleload
  | coll {k t} : Picked W C (.coll k t) (collHandler k)
  | dict {k v} : Picked W C (.dict k v) .dictload
  | obj {c} : Picked W C (.obj c) (objHandler (W.cls c).kind)
  | fref {n} : Picked W C (.fref n) .forwardrefload
  | lit {vs} : Picked W C (.lit vs) .literalload
  | dt {k} : Picked W C (.dt k) .datetimeload
  | pattern {a} : Picked W C (.pattern a) .patternload
  | timedelta : Picked W C .timedelta .timedeltaload
  | strcons {c} : c ∈ C.strconstructed → Picked W C (.strcons c) .strconstructload
  | any : Picked W C .any .anyload
  | newtype {n t} : Picked W C (.newtype n t) .newtypeload
  | bare {g h} : h = .tupleload ∨ h = .listload ∨ h = .dictload ∨ h = .setload ∨ h = .frozensetload → Picked W C (.bare g) h

theorem picked (hd : C.Default) {t : Ty} {h : Handler} (hp : pick W C t = .ok h) : Picked W C t h := by
  cases t with
  | prim p =>
    by_cases hn : p = .none
    · subst hn; rw [pick_none hd] at hp; cases hp; exact .none
    · by_cases hb : p ∈ C.basictypes
      · rw [pick_basic hd hb hn] at hp; cases hp; exact .basic hb hn
      · rw [pick_prim_none hd hb hn] at hp; cases hp
  | any => rw [pick_any hd] at hp; cases hp; exact .any
  | lit => rw [pick_lit hd] at hp; cases hp; exact .lit
  | enum => rw [pick_enum hd] at hp; cases hp; exact .enum
  | coll => rw [pick_coll hd] at hp; cases hp; exact .coll
  | tuple => rw [pick_tuple hd] at hp; cases hp; exact .tuple
  | dict => rw [pick_dict hd] at hp; cases hp; exact .dict
  | bare g =>
    rw [pick_bare hd] at hp
    repeat' split at hp
    all_goals cases hp
    all_goals exact .bare (by simp)
  | union => rw [pick_union hd] at hp; cases hp; exact .union
  | obj => rw [pick_obj hd] at hp; cases hp; exact .obj
  | fref => rw [pick_fref hd] at hp; cases hp; exact .fref
  | newtype => rw [pick_newtype hd] at hp; cases hp; exact .newtype
  | dt => rw [pick_dt hd] at hp; cases hp; exact .dt
  | timedelta => rw [pick_timedelta hd] at hp; cases hp; exact .timedelta
  | pattern => rw [pick_pattern hd] at hp; cases hp; exact .pattern
  | strcons c =>
    by_cases hc : c ∈ C.strconstructed
    · rw [pick_strcons hd hc] at hp; cases hp; exact .strcons hc
    · rw [pick_strcons_none hd hc] at hp; cases hp
  | «opaque» => rw [pick_opaque hd] at hp; cases hp

/-- A lookup that fails does so with the exception made for it. -/
theorem lookupExc_default (hd : C.Default) {t : Ty} {c : ExcClass} (h : pick W C t = .error c) (m : Exc) : lookupExc m c = m := by
  have := pick_error hd h; subst this; rfl

theorem lookupExc_calm (hcc : CalmConditions W C) {t : Ty} {c : ExcClass} (h : pick W C t = .error c) (m : Exc) : lookupExc m c = m := by
  have := pick_error_value hcc h; subst this; rfl

/-- The handler that the default list gives. -/
theorem picked_of_stock {t : Ty} {h : Handler} (hp : pick W C.stock t = .ok h) : Picked W C t h := by
  cases TL.picked (C := C.stock) C.stock_default hp with
  | basic h1 h2 => exact .basic h1 h2
  | strcons h1 => exact .strcons h1
  | bare h1 => exact .bare h1
  | _ => constructor

theorem Picked.not_custom {t : Ty} {i : Nat} : ¬ Picked W C t (.custom i) := by
  intro h
  generalize hx : Handler.custom i = x at h
  cases h with
  | bare h => rcases h with h | h | h | h | h <;> rw [h] at hx <;> cases hx
  | @obj c => cases hk : (W.cls c).kind <;> rw [hk] at hx <;> cases hx
  | @coll k => cases k <;> cases hx
  | _ => cases hx

/-- The default handlers suit the types they are selected for, except for the unsubscripted collections. -/
theorem picked_suits {t : Ty} {h : Handler} (hp : Picked W C t h) (hl : h.isLeaf = false) (hs : suits W h t = false) :
    ∃ g, t = .bare g := by
  cases hp with
  | bare => exact ⟨_, rfl⟩
  | obj =>
    rename_i c
    cases hk : (W.cls c).kind <;> simp [objHandler, hk, suits] at hs
  | coll => rename_i k t; cases k <;> simp [collHandler, suits] at hs
  | _ => first | (exfalso; revert hl; decide) | (simp [suits] at hs)

/-- The handler of a homogeneous collection builds that kind of collection. -/
theorem picked_coll {k k' : SeqKind} {t : Ty} {h : Handler} (hp : Picked W C (.coll k' t) h) (hk : iterKind h = some k) : k' = k := by
  cases hp; cases k' <;> simpa [collHandler, iterKind] using hk

theorem FastSem.nil_of_not_basic {P : Handler → Val → Ty → Except Exc Val → Prop} {kt vt : Ty} {keyF : Handler}
    {kvs acc res : List (Val × Val)} (h : FastSem W C P kt vt keyF none kvs acc res) (hb : C.isBasic vt = false) : kvs = [] ∧ res = acc := by
  cases h with
  | nil => exact ⟨rfl, rfl⟩
  | cons _ hx _ _ =>
    cases hx with
    | pass hp => obtain ⟨p, rfl, h1, _⟩ := hp; simp [Config.isBasic, h1] at hb
    | call _ h _ => cases h

theorem FastSem.some_of_none {P : Handler → Val → Ty → Except Exc Val → Prop} {kt vt : Ty} {keyF hv : Handler}
    {kvs acc res : List (Val × Val)} (h : FastSem W C P kt vt keyF none kvs acc res) : FastSem W C P kt vt keyF (some hv) kvs acc res := by
  generalize hvf : (none : Option Handler) = vf at h
  induction h with
  | nil => exact .nil
  | cons hk hx hh _ ih =>
    refine .cons hk ?_ hh ih
    cases hx with
    | pass h => exact .pass h
    | call h1 h2 h3 => subst hvf; cases h2

/-- Where the handler mix-up is harmless, the first pass over a dictionary uses the right handlers. -/
theorem fast_safe (hd : C.Default) {P : Handler → Val → Ty → Except Exc Val → Prop} {kt vt : Ty} (hsafe : DictSafe C kt vt)
    {hk hv keyF : Handler} {valF : Option Handler} (hpk : pick W C kt = .ok hk) (hpv : pick W C vt = .ok hv)
    (hcase : keyF = hk ∧ valF = some hv ∨ keyF = hv ∧ valF = none) {kvs acc res : List (Val × Val)}
    (h : FastSem W C P kt vt keyF valF kvs acc res) : FastSem W C P kt vt hk (some hv) kvs acc res := by
  rcases hcase with ⟨rfl, rfl⟩ | ⟨rfl, rfl⟩
  · exact h
  · rcases hsafe with hb | rfl | ⟨h1, h2, h3, h4⟩
    · obtain ⟨rfl, rfl⟩ := h.nil_of_not_basic hb; exact .nil
    · rw [hpk] at hpv; cases hpv; exact h.some_of_none
    · have e1 : hk = .basicload := by
        have := picked hd hpk
        cases this <;> simp [Config.isBasic] at h1 h3 <;> rfl
      have e2 : keyF = .basicload := by
        have := picked hd hpv
        cases this <;> simp [Config.isBasic] at h2 h4 <;> rfl
      subst e1 e2; exact h.some_of_none

/-! ## The types that can be met -/

/-- The types that can be met while loading into `t`: its components, the types of fields and of enum annotations, and the types
the loader already knows by name. -/
inductive Meets (W : World) (C : Config) (s : LState) (t : Ty) : Ty → Prop
  | self : Meets W C s t t
  | known {n u} : Bound s n u → Meets W C s t u
  | coll {k u} : Meets W C s t (.coll k u) → Meets W C s t u
  | tuple {us u} : Meets W C s t (.tuple us) → u ∈ us → Meets W C s t u
  | dictKey {k v} : Meets W C s t (.dict k v) → Meets W C s t k
  | dictVal {k v} : Meets W C s t (.dict k v) → Meets W C s t v
  | union {us u} : Meets W C s t (.union us) → u ∈ us → Meets W C s t u
  | newtype {n u} : Meets W C s t (.newtype n u) → Meets W C s t u
  | enum {e u} : Meets W C s t (.enum e) → u ∈ (W.enm e).hints → Meets W C s t u
  | field {c f u} : Meets W C s t (.obj c) → f ∈ (W.cls c).fields → FieldTy (W.cls c).kind f u → Meets W C s t u
  | custom {i v u x w} : Installed C (.custom i) → Meets W C s t u → (W.customLoad i v u).Asks x w → Meets W C s t w

/-- The types a forward reference to `n` can denote: the one the loader knows by that name, or one named so. -/
def Known (W : World) (s : LState) (n : String) (u : Ty) : Prop := Bound s n u ∨ W.tyName u = some n

theorem Meets.closed (s : LState) (t : Ty) : Closed W C (Meets W C s t) (.of (fun n u => Meets W C s t u ∧ Known W s n u)) where
  coll _ _ h := .coll h
  tuple _ h _ hu := .tuple h hu
  dictKey _ _ h := .dictKey h
  dictVal _ _ h := .dictVal h
  union _ h _ hu := .union h hu
  newtype _ _ h := .newtype h
  enum _ h _ hu := .enum h hu
  field _ h _ hf _ ht := .field h hf ht
  custom _ hi _ _ h _ _ ha := .custom hi h ha
  names _ _ h hn := ⟨h, Or.inr hn⟩
  bound _ _ h := h.1

theorem Reachable.good_meets {s : LState} (hs : Reachable W C s) (t : Ty) : Good W C (.of (fun n u => Meets W C s t u ∧ Known W s n u)) s :=
  ⟨hs.coh, fun _ _ h => ⟨.known h, Or.inl h⟩, fun _ _ h => h.elim⟩

end TL
