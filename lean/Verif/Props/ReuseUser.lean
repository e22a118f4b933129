import Verif.Props.Reuse
import Verif.Props.Custom
/-!
# C06 with handlers added by the user

The same as `Props/Reuse.lean` for a Loader whose handler list the user has changed in any way: handlers added, which may call the loader
back, and default handlers removed or moved.
-/

namespace TL

variable {W : World} {C : Config}

/-! ## Specification -/

/-- `u` is met while loading into `t`, when forward references mean `Γ`; as `Uses`, and a handler of the user may call the loader back with
the types it likes. -/
inductive UsesOf (W : World) (C : Config) (Γ : Env) (t : Ty) : Ty → Prop
  | self : UsesOf W C Γ t t
  | coll {k u} : UsesOf W C Γ t (.coll k u) → UsesOf W C Γ t u
  | tuple {us u} : UsesOf W C Γ t (.tuple us) → u ∈ us → UsesOf W C Γ t u
  | dictKey {k v} : UsesOf W C Γ t (.dict k v) → UsesOf W C Γ t k
  | dictVal {k v} : UsesOf W C Γ t (.dict k v) → UsesOf W C Γ t v
  | union {us u} : UsesOf W C Γ t (.union us) → u ∈ us → UsesOf W C Γ t u
  | newtype {n u} : UsesOf W C Γ t (.newtype n u) → UsesOf W C Γ t u
  | enum {e u} : UsesOf W C Γ t (.enum e) → u ∈ (W.enm e).hints → UsesOf W C Γ t u
  | field {c f u} : UsesOf W C Γ t (.obj c) → f ∈ (W.cls c).fields → FieldTy (W.cls c).kind f u → UsesOf W C Γ t u
  | fref {n u} (f : String → Option Ty) : UsesOf W C Γ t (.fref n) → Γ = some f → f n = some u → UsesOf W C Γ t u
  | asks {w i v x u} : UsesOf W C Γ t w → pick W C w = .ok (.custom i) → (W.customLoad i v w).Asks x u → UsesOf W C Γ t u

/-- Loading `v` into `t` may load the data `x` into the type `u` on the way; as `Reaches`, and through the handlers of the user. -/
inductive ReachesOf (W : World) (C : Config) (Γ : Env) (v : Val) (t : Ty) : Val → Ty → Prop
  | self : ReachesOf W C Γ v t v t
  | elem {w xs k u x} : ReachesOf W C Γ v t w (.coll k u) → w.isDict = false → pyIter w = some xs → x ∈ xs → ReachesOf W C Γ v t x u
  | item {w xs us x u} : ReachesOf W C Γ v t w (.tuple us) → w.isDict = false → pyIter w = some xs → (x, u) ∈ xs.zip us → ReachesOf W C Γ v t x u
  | key {w kvs k u p} : ReachesOf W C Γ v t w (.dict k u) → DictData C w kvs → p ∈ kvs → ReachesOf W C Γ v t p.1 k
  | val {w kvs k u p} : ReachesOf W C Γ v t w (.dict k u) → DictData C w kvs → p ∈ kvs → ReachesOf W C Γ v t p.2 u
  | member {w us u} : ReachesOf W C Γ v t w (.union us) → u ∈ us → ReachesOf W C Γ v t w u
  | newtype {w n u} : ReachesOf W C Γ v t w (.newtype n u) → ReachesOf W C Γ v t w u
  | hint {w e u} : ReachesOf W C Γ v t w (.enum e) → u ∈ (W.enm e).hints → ReachesOf W C Γ v t w u
  | field {w kvs c f m x u} : ReachesOf W C Γ v t w (.obj c) → DictData C w kvs → f ∈ (W.cls c).fields → KeyOf C (W.cls c) f m →
      (.str m, x) ∈ kvs → FieldTy (W.cls c).kind f u → ReachesOf W C Γ v t x u
  | fref {w n u} (f : String → Option Ty) : ReachesOf W C Γ v t w (.fref n) → Γ = some f → f n = some u → ReachesOf W C Γ v t w u
  | asks {w u i x u'} : ReachesOf W C Γ v t w u → pick W C u = .ok (.custom i) → (W.customLoad i w u).Asks x u' → ReachesOf W C Γ v t x u'

/-- The two meanings agree on the forward references met while loading into `t`. -/
def SameNamesOf (W : World) (C : Config) (Γ Γ' : Env) (t : Ty) : Prop :=
  (Γ = none ↔ Γ' = none) ∧ ∀ f f', Γ = some f → Γ' = some f' → ∀ n, UsesOf W C Γ t (.fref n) → f n = f' n

/-- The conditions of `Steady`, and: the user has not changed the handlers of the types of keys and values of dictionaries that are met. -/
structure SteadyOf (W : World) (C : Config) (Γ : Env) (v : Val) (t : Ty) : Prop where
  unnamed : ∀ f n, Γ = some f → UsesOf W C Γ t (.fref n) → f n = none → ∀ u, UsesOf W C Γ t u → W.tyName u ≠ some n
  dictSafe : ∀ k w, UsesOf W C Γ t (.dict k w) → DictSafe C k w
  dictColl : ∀ k w, UsesOf W C Γ t (.dict k w) → k = w ∨ (∀ a u, k ≠ .coll a u) ∨ (∀ a u, w ≠ .coll a u) ∧ ∀ g, w ≠ .bare g
  dictUsual : ∀ k w, UsesOf W C Γ t (.dict k w) → C.Usual W k ∧ C.Usual W w
  intKeys : ∀ d kvs w, ReachesOf W C Γ v t d (.dict (.prim .int) w) → DictData C d kvs → ∀ p ∈ kvs, ∀ b, p.1 ≠ .bool b
  intVals : ∀ d kvs k, ReachesOf W C Γ v t d (.dict k (.prim .int)) → DictData C d kvs → ∀ p ∈ kvs, ∀ b, p.2 ≠ .bool b

/-! ## Proof -/

theorem ReachesOf.uses {Γ : Env} {v x : Val} {t u : Ty} (h : ReachesOf W C Γ v t x u) : UsesOf W C Γ t u := by
  induction h with
  | self => exact .self
  | elem _ _ _ _ ih => exact .coll ih
  | item _ _ _ hm ih => exact .tuple ih (List.of_mem_zip hm).2
  | key _ _ _ ih => exact .dictKey ih
  | val _ _ _ ih => exact .dictVal ih
  | member _ hu ih => exact .union ih hu
  | newtype _ ih => exact .newtype ih
  | hint _ hu ih => exact .enum ih hu
  | field _ _ hf _ _ ht ih => exact .field ih hf ht
  | fref f _ h1 h2 ih => exact .fref f ih h1 h2
  | asks _ hp ha ih => exact .asks ih hp ha

theorem SteadyOf.tame {Γ : Env} {v : Val} {t : Ty} (h : SteadyOf W C Γ v t) (h1 : W.NotRequiredLaw) (h2 : W.SteadyTags) :
    Tame W C Γ (UsesOf W C Γ t) (ReachesOf W C Γ v t) where
  type _ _ h := h.uses
  coll _ _ _ _ h hnd hp _ hx := .elem h hnd hp hx
  tuple _ _ _ h hnd hp _ _ hx := .item h hnd hp hx
  dict _ _ _ _ h hd _ hp := ⟨.key h hd hp, .val h hd hp⟩
  union _ _ h _ hu := .member h hu
  newtype _ _ _ h := .newtype h
  enum _ _ h _ hu := .hint h hu
  field _ _ _ h hd _ hf _ _ hk hx _ ht := .field h hd hf hk hx ht
  fref _ f _ _ hΓ hn hf := .fref f hn hΓ hf
  unnamed := h.unnamed
  dictSafe := h.dictSafe
  dictColl := h.dictColl
  dictExact d k w kvs hr hk p hp := by
    constructor <;> intro hb <;> rcases basicInstance_exact hb with he | ⟨rfl, b, he⟩
    · exact he
    · exact absurd he (h.intKeys d kvs w hr hk p hp b)
    · exact he
    · exact absurd he (h.intVals d kvs k hr hk p hp b)
  dictUsual := h.dictUsual
  asks _ _ _ _ _ h hp ha := .asks h hp ha
  notRequired := h1
  steadyTags := h2

/-- **C06** Two loaders of the same configuration, with any handlers of the user, whatever loads each of them has done before, have the same
outcome: the same result, the same exception (with its trace), or both do not terminate. -/
theorem C06_user_partial (h1 : W.NotRequiredLaw) (h2 : W.SteadyTags) {s s' : LState} (hs : Reachable W C s)
    (hs' : Reachable W C s') {v : Val} {t : Ty} (hn : SameNamesOf W C (namesIn W s t) (namesIn W s' t) t) (hst : SteadyOf W C (namesIn W s t) v t) :
    (∀ r, (∃ s1, Loads W C s v t r s1) ↔ ∃ s1, Loads W C s' v t r s1) ∧
    (∀ e, (∃ s1, Raises W C s v t e s1) ↔ ∃ s1, Raises W C s' v t e s1) ∧
    (Diverges W C s v t ↔ Diverges W C s' v t) := by
  have hr : SameNamesOf W C (namesIn W s t) (namesIn W s t) t := ⟨Iff.rfl, fun f f' h h' n _ => by rw [h] at h'; cases h'; rfl⟩
  have k1 := load_ref_of hs (hst.tame h1 h2) .self hr
  have k2 := load_ref_of hs' (hst.tame h1 h2) .self hn
  refine ⟨fun r => ?_, fun e => ?_, ?_⟩
  · constructor
    · rintro ⟨s1, n, h⟩
      obtain ⟨s2, h'⟩ := ((k2 n).1 r).2 (((k1 n).1 r).1 ⟨s1, h⟩)
      exact ⟨s2, n, h'⟩
    · rintro ⟨s1, n, h⟩
      obtain ⟨s2, h'⟩ := ((k1 n).1 r).2 (((k2 n).1 r).1 ⟨s1, h⟩)
      exact ⟨s2, n, h'⟩
  · constructor
    · rintro ⟨s1, n, h⟩
      obtain ⟨s2, h'⟩ := ((k2 n).2.1 e).2 (((k1 n).2.1 e).1 ⟨s1, h⟩)
      exact ⟨s2, n, h'⟩
    · rintro ⟨s1, n, h⟩
      obtain ⟨s2, h'⟩ := ((k1 n).2.1 e).2 (((k2 n).2.1 e).1 ⟨s1, h⟩)
      exact ⟨s2, n, h'⟩
  · exact ⟨fun h n => (k2 n).2.2.2 ((k1 n).2.2.1 (h n)), fun h n => (k1 n).2.2.2 ((k2 n).2.2.1 (h n))⟩

/-- **C06** With any handlers of the user: after any history of loads, a type without forward references and dictionaries is loaded as by a new
loader. -/
theorem C06_user_fresh_partial (h1 : W.NotRequiredLaw) (h2 : W.SteadyTags) {s : LState} {fr : List (String × Ty)} {rew : List Nat}
    (hs : AfterLoads W C { frefs := some fr, tdRew := rew } s) {v : Val} {t : Ty} (hf : ∀ n, ¬ UsesOf W C (namesIn W s t) t (.fref n))
    (hdict : ∀ k w, ¬ UsesOf W C (namesIn W s t) t (.dict k w)) :
    (∀ r, (∃ s1, Loads W C s v t r s1) ↔ ∃ s1, Loads W C { frefs := some [] } v t r s1) ∧
    (∀ e, (∃ s1, Raises W C s v t e s1) ↔ ∃ s1, Raises W C { frefs := some [] } v t e s1) := by
  have hr : Reachable W C s := hs.reachable (.new _ _)
  have hnn : s.frefs ≠ none := fun h => by have := hs.ext.frefs_none.2 h; cases this
  have h := C06_user_partial h1 h2 hr (Reachable.new (some []) []) (v := v) (t := t)
    ⟨by unfold namesIn; cases hsf : s.frefs with
        | none => exact absurd hsf hnn
        | some _ => simp, fun _ _ _ _ n hu => absurd hu (hf n)⟩
    ⟨fun _ n _ hu => absurd hu (hf n), fun k w hu => absurd hu (hdict k w), fun k w hu => absurd hu (hdict k w),
      fun k w hu => absurd hu (hdict k w), fun _ _ _ hu => absurd hu.uses (hdict _ _), fun _ _ _ hu => absurd hu.uses (hdict _ _)⟩
  exact ⟨h.1, h.2.1⟩

/-- The condition on dictionaries is needed: with a handler for strings (it returns None for all of them), `{'a': '5'}` is loaded into
`Dict[str, int]` as `{None: 5}` by a new loader, and as `{'a': 5}` by the same loader the next time. -/
theorem C06_user_counterexample : ∃ r s1 r' s2,
    Loads Sample.WC Sample.CC (fresh []) (.dict [(.str "a", .str "5")]) (.dict (.prim .str) (.prim .int)) r s1 ∧
    Loads Sample.WC Sample.CC s1 (.dict [(.str "a", .str "5")]) (.dict (.prim .str) (.prim .int)) r' s2 ∧
    r = .dict [(.none, .int 5)] ∧ r' = .dict [(.str "a", .int 5)] :=
  ⟨_, _, _, _, ⟨9, rfl⟩, ⟨9, rfl⟩, rfl, rfl⟩

/-- What is met when loading into `List[Path]` with the sample handler, which loads paths as integers. -/
theorem Sample.uses_path {Γ : Env} {u : Ty} (h : UsesOf Sample.WB Sample.CB Γ (.coll .list (.strcons "Path")) u) :
    u = .coll .list (.strcons "Path") ∨ u = .strcons "Path" ∨ u = .prim .int := by
  induction h with
  | self => exact Or.inl rfl
  | coll _ ih => rcases ih with h | h | h <;> cases h; exact Or.inr (Or.inl rfl)
  | asks _ hp ha ih =>
    rcases ih with rfl | rfl | rfl
    · cases hp
    · cases hp
      change Script.Asks (Sample.callback _ (.strcons "Path")) _ _ at ha
      unfold Sample.callback at ha; rw [if_pos rfl] at ha
      cases ha with
      | here => exact Or.inr (Or.inr rfl)
      | @later _ _ _ _ o _ _ h => cases o <;> cases h
    · cases hp
  | _ => rename_i ih; rcases ih with h | h | h <;> cases h

/-- The hypotheses of `C06_user_partial` and `C06_user_fresh_partial` are met, for a handler that calls the loader back, a loader that has done
something before, and any value. -/
example (v : Val) : ∃ s, AfterLoads Sample.WB Sample.CB (fresh []) s ∧ s.idx ≠ [] ∧ Sample.WB.NotRequiredLaw ∧ Sample.WB.SteadyTags ∧
    (∀ n, ¬ UsesOf Sample.WB Sample.CB (namesIn Sample.WB s (.coll .list (.strcons "Path"))) (.coll .list (.strcons "Path")) (.fref n)) ∧
    (∀ k w, ¬ UsesOf Sample.WB Sample.CB (namesIn Sample.WB s (.coll .list (.strcons "Path"))) (.coll .list (.strcons "Path")) (.dict k w)) ∧
    SteadyOf Sample.WB Sample.CB (namesIn Sample.WB s (.coll .list (.strcons "Path"))) v (.coll .list (.strcons "Path")) := by
  have hf : ∀ Γ n, ¬ UsesOf Sample.WB Sample.CB Γ (.coll .list (.strcons "Path")) (.fref n) := fun Γ n h => by
    have := Sample.uses_path h; simp at this
  have hd : ∀ Γ k w, ¬ UsesOf Sample.WB Sample.CB Γ (.coll .list (.strcons "Path")) (.dict k w) := fun Γ k w h => by
    have := Sample.uses_path h; simp at this
  refine ⟨_, .ok (v := .str "5") (t := .strcons "Path") (r := .int 5) .refl ⟨4, rfl⟩, by decide, Sample.notRequiredLaw, ?_, hf _, hd _,
    fun _ n _ hu => absurd hu (hf _ n), fun k w hu => absurd hu (hd _ k w), fun k w hu => absurd hu (hd _ k w),
      fun k w hu => absurd hu (hd _ k w), fun _ _ _ hu => absurd hu.uses (hd _ _ _), fun _ _ _ hu => absurd hu.uses (hd _ _ _)⟩
  exact ⟨Sample.steadyTags.1, Sample.steadyTags.2⟩

end TL
