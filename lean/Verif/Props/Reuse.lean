import Verif.Lemmas.Ref
import Verif.Props.Dispatch
import Verif.Sample
/-!
# C06: reusing a loader does not change results

Not true in general (see the counterexamples).  It is proved for all types and values under conditions on the dictionaries and on
the forward references that are met.
-/

namespace TL

variable {W : World} {C : Config}

/-! ## Specification -/

/-- `u` is met while loading into `t`, when forward references mean `Γ`. -/
inductive Uses (W : World) (Γ : Env) (t : Ty) : Ty → Prop
  | self : Uses W Γ t t
  | coll {k u} : Uses W Γ t (.coll k u) → Uses W Γ t u
  | tuple {us u} : Uses W Γ t (.tuple us) → u ∈ us → Uses W Γ t u
  | dictKey {k v} : Uses W Γ t (.dict k v) → Uses W Γ t k
  | dictVal {k v} : Uses W Γ t (.dict k v) → Uses W Γ t v
  | union {us u} : Uses W Γ t (.union us) → u ∈ us → Uses W Γ t u
  | newtype {n u} : Uses W Γ t (.newtype n u) → Uses W Γ t u
  | enum {e u} : Uses W Γ t (.enum e) → u ∈ (W.enm e).hints → Uses W Γ t u
  | field {c f u} : Uses W Γ t (.obj c) → f ∈ (W.cls c).fields → FieldTy (W.cls c).kind f u → Uses W Γ t u
  | fref {n u} (f : String → Option Ty) : Uses W Γ t (.fref n) → Γ = some f → f n = some u → Uses W Γ t u

/-- Loading `v` into `t` may load the data `x` into the type `u` on the way. -/
inductive Reaches (W : World) (C : Config) (Γ : Env) (v : Val) (t : Ty) : Val → Ty → Prop
  | self : Reaches W C Γ v t v t
  | elem {w xs k u x} : Reaches W C Γ v t w (.coll k u) → w.isDict = false → pyIter w = some xs → x ∈ xs → Reaches W C Γ v t x u
  | item {w xs us x u} : Reaches W C Γ v t w (.tuple us) → w.isDict = false → pyIter w = some xs → (x, u) ∈ xs.zip us → Reaches W C Γ v t x u
  | key {w kvs k u p} : Reaches W C Γ v t w (.dict k u) → DictData C w kvs → p ∈ kvs → Reaches W C Γ v t p.1 k
  | val {w kvs k u p} : Reaches W C Γ v t w (.dict k u) → DictData C w kvs → p ∈ kvs → Reaches W C Γ v t p.2 u
  | member {w us u} : Reaches W C Γ v t w (.union us) → u ∈ us → Reaches W C Γ v t w u
  | newtype {w n u} : Reaches W C Γ v t w (.newtype n u) → Reaches W C Γ v t w u
  | hint {w e u} : Reaches W C Γ v t w (.enum e) → u ∈ (W.enm e).hints → Reaches W C Γ v t w u
  | field {w kvs c f m x u} : Reaches W C Γ v t w (.obj c) → DictData C w kvs → f ∈ (W.cls c).fields → KeyOf C (W.cls c) f m →
      (.str m, x) ∈ kvs → FieldTy (W.cls c).kind f u → Reaches W C Γ v t x u
  | fref {w n u} (f : String → Option Ty) : Reaches W C Γ v t w (.fref n) → Γ = some f → f n = some u → Reaches W C Γ v t w u

/-- What forward references mean while a loader in state `s` loads into `t`: the names it knows and, if it has never looked `t`
up, the name of `t`. -/
def namesIn (W : World) (s : LState) (t : Ty) : Env :=
  match s.frefs with
  | none => none
  | some fr => some (fun n => match aget fr n with
    | some u => some u
    | none => if aget s.idx t = none ∧ W.tyName t = some n then some t else none)

/-- The two meanings agree on the forward references used by `t`. -/
def SameNames (W : World) (Γ Γ' : Env) (t : Ty) : Prop :=
  (Γ = none ↔ Γ' = none) ∧ ∀ f f', Γ = some f → Γ' = some f' → ∀ n, Uses W Γ t (.fref n) → f n = f' n

/-- The conditions under which the outcome does not depend on the history.
* no type that is met has the name of a forward reference that is met and not known;
* the dictionary types that are met are not affected by the confusion of handlers in `_dictload`: the values are not of a basic
  type, or keys and values have the same type or both basic types (not None); keys that are collections do not come with
  values that are collections of another type;
* no bool is a key (value) of a dictionary whose keys (values) are ints (`isinstance(True, int)`). -/
structure Steady (W : World) (C : Config) (Γ : Env) (v : Val) (t : Ty) : Prop where
  unnamed : ∀ f n, Γ = some f → Uses W Γ t (.fref n) → f n = none → ∀ u, Uses W Γ t u → W.tyName u ≠ some n
  dictSafe : ∀ k w, Uses W Γ t (.dict k w) → DictSafe C k w
  dictColl : ∀ k w, Uses W Γ t (.dict k w) → k = w ∨ (∀ a u, k ≠ .coll a u) ∨ (∀ a u, w ≠ .coll a u) ∧ ∀ g, w ≠ .bare g
  intKeys : ∀ d kvs w, Reaches W C Γ v t d (.dict (.prim .int) w) → DictData C d kvs → ∀ p ∈ kvs, ∀ b, p.1 ≠ .bool b
  intVals : ∀ d kvs k, Reaches W C Γ v t d (.dict k (.prim .int)) → DictData C d kvs → ∀ p ∈ kvs, ∀ b, p.2 ≠ .bool b

/-! ## Proof -/

theorem basicInstance_exact {t : Ty} {x : Val} (h : BasicInstance C t x) : typeOf x = t ∨ (t = .prim .int ∧ ∃ b, x = .bool b) := by
  obtain ⟨p, rfl, _, hi⟩ := h
  cases x <;> simp [isInst] at hi <;> try (subst hi; exact Or.inl rfl)
  rcases hi with rfl | rfl
  · exact Or.inl rfl
  · exact Or.inr ⟨rfl, _, rfl⟩

theorem Reaches.uses {Γ : Env} {v x : Val} {t u : Ty} (h : Reaches W C Γ v t x u) : Uses W Γ t u := by
  induction h with
  | self => exact .self
  | elem _ _ _ _ ih => exact .coll ih
  | item _ _ _ hm ih => exact .tuple ih (List.of_mem_zip hm).2
  | key _ _ _ ih => exact .dictKey ih
  | val _ _ _ ih => exact .dictVal ih
  | member _ hu ih => exact .union ih hu
  | newtype _ ih => exact .newtype ih
  | hint _ hu ih => exact .enum ih hu
  | field _ _ hf _ _ ht ih => exact .field ih hf ht
  | fref f _ h1 h2 ih => exact .fref f ih h1 h2

theorem Steady.tame (hd : C.Default) {Γ : Env} {v : Val} {t : Ty} (h : Steady W C Γ v t) (h1 : W.NotRequiredLaw) (h2 : W.SteadyTags) :
    Tame W C Γ (Uses W Γ t) (Reaches W C Γ v t) where
  type _ _ h := h.uses
  coll _ _ _ _ h hnd hp _ hx := .elem h hnd hp hx
  tuple _ _ _ h hnd hp _ _ hx := .item h hnd hp hx
  dict _ _ _ _ h hd _ hp := ⟨.key h hd hp, .val h hd hp⟩
  union _ _ h _ hu := .member h hu
  newtype _ _ _ h := .newtype h
  enum _ _ h _ hu := .hint h hu
  field _ _ _ h hd _ hf _ _ hk hx _ ht := .field h hd hf hk hx ht
  fref _ f _ _ hΓ hn hf := .fref f hn hΓ hf
  unnamed := h.unnamed
  dictSafe := h.dictSafe
  dictColl := h.dictColl
  dictExact d k w kvs hr hk p hp := by
    constructor <;> intro hb <;> rcases basicInstance_exact hb with he | ⟨rfl, b, he⟩
    · exact he
    · exact absurd he (h.intKeys d kvs w hr hk p hp b)
    · exact he
    · exact absurd he (h.intVals d kvs k hr hk p hp b)
  dictUsual _ _ _ := ⟨hd.usual, hd.usual⟩
  asks i _ _ _ _ _ hp := absurd (pick_installed hp) (not_installed hd i)
  notRequired := h1
  steadyTags := h2

theorem cacheReg_frefs (t : Ty) (h : Handler) (s : LState) : (s.frefs = none → (cacheReg W t h s).frefs = none) ∧
    ∀ fr, s.frefs = some fr → ∃ fr', (cacheReg W t h s).frefs = some fr' ∧ ∀ n, aget fr' n = match aget fr n with
      | some u => some u
      | none => if aget s.idx t = none ∧ W.tyName t = some n then some t else none := by
  unfold cacheReg
  cases hi : aget s.idx t with
  | some x => exact ⟨fun h => h, fun fr h => ⟨fr, h, fun n => by cases aget fr n <;> simp⟩⟩
  | none =>
    dsimp only
    unfold registerName
    cases hf : s.frefs with
    | none =>
      refine ⟨fun _ => ?_, fun fr h => ?_⟩
      · rfl
      · cases h
    | some fr0 =>
      refine ⟨fun h => ?_, fun fr h => ?_⟩
      · cases h
      cases h
      dsimp only
      cases hn : W.tyName t with
      | none => exact ⟨fr0, rfl, fun n => by cases aget fr0 n <;> simp⟩
      | some m =>
        dsimp only
        cases ha : aget fr0 m with
        | some u =>
          refine ⟨fr0, rfl, fun n => ?_⟩
          cases hb : aget fr0 n with
          | some _ => rfl
          | none =>
            have : m ≠ n := by rintro rfl; rw [ha] at hb; cases hb
            simp [this]
        | none =>
          refine ⟨_, rfl, fun n => ?_⟩
          rw [aget_aset]
          by_cases hmn : m = n
          · subst hmn; simp [ha]
          · have : ¬ n = m := fun h => hmn h.symm
            simp only [Option.some.injEq, hmn, and_false, if_false]
            cases aget fr0 n <;> rfl

theorem knows_after {s : LState} (hc : Coh W C s) {t : Ty} {h : Handler} (hp : pick W C t = .ok h) {Γ : Env} {G : Ty → Prop}
    (hn : (Γ = none ↔ namesIn W s t = none) ∧ ∀ f f', Γ = some f → namesIn W s t = some f' → ∀ n, G (.fref n) → f n = f' n) :
    Knows W C Γ G (cacheReg W t h s) := by
  refine ⟨hc.ext (cacheReg_ext hp), fun e => ?_, fun f e => ?_⟩
  · have h2 := hn.1.1 e
    unfold namesIn at h2
    cases hf : s.frefs with
    | none => exact (cacheReg_frefs t h s).1 hf
    | some fr => rw [hf] at h2; cases h2
  · cases hf : s.frefs with
    | none =>
      have : namesIn W s t = none := by unfold namesIn; rw [hf]
      rw [hn.1.2 this] at e; cases e
    | some fr =>
      obtain ⟨fr', h1, h2⟩ := (cacheReg_frefs (W := W) t h s).2 fr hf
      refine ⟨fr', h1, fun n hu => ?_⟩
      have h3 : namesIn W s t = some (fun n => match aget fr n with
        | some u => some u
        | none => if aget s.idx t = none ∧ W.tyName t = some n then some t else none) := by unfold namesIn; rw [hf]
      rw [h2, hn.2 f _ e h3 n hu]

/-- A loader computes the reference loader: the general form. -/
theorem load_ref_of {s : LState} (hs : Reachable W C s) {v : Val} {t : Ty} {Γ : Env} {G : Ty → Prop} {P : Val → Ty → Prop}
    (ht : Tame W C Γ G P) (hv : P v t)
    (hn : (Γ = none ↔ namesIn W s t = none) ∧ ∀ f f', Γ = some f → namesIn W s t = some f' → ∀ n, G (.fref n) → f n = f' n) (n : Nat) :
    (∀ r, (∃ s', load W C n v t s = .ok r s') ↔ Ref.load W C Γ n v t () = .ok r ()) ∧
    (∀ e, (∃ s', load W C n v t s = .err e s') ↔ Ref.load W C Γ n v t () = .err e ()) ∧
    (load W C n v t s = .div ↔ Ref.load W C Γ n v t () = .div) := by
  have hc := hs.coh
  have key : SimRes (fun _ _ => True) (load W C n v t s) (Ref.load W C Γ n v t ()) := by
    rw [load_eq hc]
    cases hp : pick W C t with
    | error c =>
      unfold Ref.load Ref.loadWith Ref.resolve
      rw [hp]; exact ⟨rfl, trivial⟩
    | ok h =>
      have := KR.run ht n h v t (pick_apt hp) hv _ () (knows_after hc hp hn)
      unfold Ref.load
      rw [ref_loadWith_eq hp]
      dsimp only
      cases ha : run W C n h v t (cacheReg W t h s) <;> cases hb : Ref.run W C Γ n h v t () <;> rw [ha, hb] at this <;>
        first | exact this.elim | skip
      · exact ⟨this.1, trivial⟩
      · exact ⟨by rw [this.1], trivial⟩
      · trivial
  cases ha : load W C n v t s <;> cases hb : Ref.load W C Γ n v t () <;> rw [ha, hb] at key <;> first | exact key.elim | skip
  · obtain ⟨rfl, _⟩ := key; simp
  · obtain ⟨rfl, _⟩ := key; simp
  · simp

/-- A loader computes the reference loader. -/
theorem load_ref (hd : C.Default) (h1 : W.NotRequiredLaw) (h2 : W.SteadyTags) {s : LState} (hs : Reachable W C s) {v : Val} {t : Ty}
    {Γ : Env} (hn : SameNames W Γ (namesIn W s t) t) (hst : Steady W C Γ v t) (n : Nat) :
    (∀ r, (∃ s', load W C n v t s = .ok r s') ↔ Ref.load W C Γ n v t () = .ok r ()) ∧
    (∀ e, (∃ s', load W C n v t s = .err e s') ↔ Ref.load W C Γ n v t () = .err e ()) ∧
    (load W C n v t s = .div ↔ Ref.load W C Γ n v t () = .div) :=
  load_ref_of hs (hst.tame hd h1 h2) .self hn n

/-- Successful loads are those of the reference loader. -/
theorem loads_ref (hd : C.Default) (h1 : W.NotRequiredLaw) (h2 : W.SteadyTags) {s : LState} (hs : Reachable W C s) {v : Val} {t : Ty}
    {Γ : Env} (hn : SameNames W Γ (namesIn W s t) t) (hst : Steady W C Γ v t) (r : Val) :
    (∃ s', Loads W C s v t r s') ↔ ∃ n, Ref.load W C Γ n v t () = .ok r () := by
  constructor
  · rintro ⟨s', n, h⟩; exact ⟨n, ((load_ref hd h1 h2 hs hn hst n).1 r).1 ⟨s', h⟩⟩
  · rintro ⟨n, h⟩
    obtain ⟨s', h'⟩ := ((load_ref hd h1 h2 hs hn hst n).1 r).2 h
    exact ⟨s', n, h'⟩

/-- Failing loads are those of the reference loader. -/
theorem raises_ref (hd : C.Default) (h1 : W.NotRequiredLaw) (h2 : W.SteadyTags) {s : LState} (hs : Reachable W C s) {v : Val} {t : Ty}
    {Γ : Env} (hn : SameNames W Γ (namesIn W s t) t) (hst : Steady W C Γ v t) (e : Exc) :
    (∃ s', Raises W C s v t e s') ↔ ∃ n, Ref.load W C Γ n v t () = .err e () := by
  constructor
  · rintro ⟨s', n, h⟩; exact ⟨n, ((load_ref hd h1 h2 hs hn hst n).2.1 e).1 ⟨s', h⟩⟩
  · rintro ⟨n, h⟩
    obtain ⟨s', h'⟩ := ((load_ref hd h1 h2 hs hn hst n).2.1 e).2 h
    exact ⟨s', n, h'⟩

theorem SameNames.refl (Γ : Env) (t : Ty) : SameNames W Γ Γ t :=
  ⟨Iff.rfl, fun f f' h h' n _ => by rw [h] at h'; cases h'; rfl⟩

/-- **C06** Two loaders of the same configuration, whatever loads each of them has done before, have the same outcome: the same
result, the same exception (with its trace), or both do not terminate. -/
theorem C06_history_partial (hd : C.Default) (h1 : W.NotRequiredLaw) (h2 : W.SteadyTags) {s s' : LState} (hs : Reachable W C s)
    (hs' : Reachable W C s') {v : Val} {t : Ty} (hn : SameNames W (namesIn W s t) (namesIn W s' t) t) (hst : Steady W C (namesIn W s t) v t) :
    (∀ r, (∃ s1, Loads W C s v t r s1) ↔ ∃ s1, Loads W C s' v t r s1) ∧
    (∀ e, (∃ s1, Raises W C s v t e s1) ↔ ∃ s1, Raises W C s' v t e s1) ∧
    (Diverges W C s v t ↔ Diverges W C s' v t) := by
  refine ⟨fun r => ?_, fun e => ?_, ?_⟩
  · rw [loads_ref hd h1 h2 hs (.refl _ _) hst, loads_ref hd h1 h2 hs' hn hst]
  · rw [raises_ref hd h1 h2 hs (.refl _ _) hst, raises_ref hd h1 h2 hs' hn hst]
  · unfold Diverges
    constructor <;> intro h n
    · exact (load_ref hd h1 h2 hs' hn hst n).2.2.2 ((load_ref hd h1 h2 hs (.refl _ _) hst n).2.2.1 (h n))
    · exact (load_ref hd h1 h2 hs (.refl _ _) hst n).2.2.2 ((load_ref hd h1 h2 hs' hn hst n).2.2.1 (h n))

/-- **C06** After any history of loads, a type without forward references and dictionaries is loaded as by a new loader. -/
theorem C06_fresh_partial (hd : C.Default) (h1 : W.NotRequiredLaw) (h2 : W.SteadyTags) {s : LState} {fr : List (String × Ty)} {rew : List Nat}
    (hs : AfterLoads W C { frefs := some fr, tdRew := rew } s) {v : Val} {t : Ty} (hf : ∀ n, ¬ Uses W (namesIn W s t) t (.fref n))
    (hdict : ∀ k w, ¬ Uses W (namesIn W s t) t (.dict k w)) :
    (∀ r, (∃ s1, Loads W C s v t r s1) ↔ ∃ s1, Loads W C { frefs := some [] } v t r s1) ∧
    (∀ e, (∃ s1, Raises W C s v t e s1) ↔ ∃ s1, Raises W C { frefs := some [] } v t e s1) := by
  have hr : Reachable W C s := hs.reachable (.new _ _)
  have hnn : s.frefs ≠ none := fun h => by have := hs.ext.frefs_none.2 h; cases this
  have h := C06_history_partial hd h1 h2 hr (Reachable.new (some []) []) (v := v) (t := t)
    ⟨by unfold namesIn; cases hsf : s.frefs with
        | none => exact absurd hsf hnn
        | some _ => simp, fun _ _ _ _ n hu => absurd hu (hf n)⟩
    ⟨fun _ n _ hu => absurd hu (hf n), fun k w hu => absurd hu (hdict k w), fun k w hu => absurd hu (hdict k w),
      fun _ _ _ hu => absurd hu.uses (hdict _ _), fun _ _ _ hu => absurd hu.uses (hdict _ _)⟩
  exact ⟨h.1, h.2.1⟩

/-! ## Counterexamples: what the conditions exclude -/

/-- `Dict[str, int]` on `{'a': True, 'b': '5'}`: a new loader returns `{'a': 1, 'b': 5}`, the same loader the next time
`{'a': True, 'b': 5}`. -/
theorem C06_bool_counterexample : ∃ r s1 r' s2,
    Loads Sample.W Sample.C (fresh []) (.dict [(.str "a", .bool true), (.str "b", .str "5")]) (.dict (.prim .str) (.prim .int)) r s1 ∧
    Loads Sample.W Sample.C s1 (.dict [(.str "a", .bool true), (.str "b", .str "5")]) (.dict (.prim .str) (.prim .int)) r' s2 ∧ r ≠ r' :=
  ⟨_, _, _, _, ⟨9, rfl⟩, ⟨9, rfl⟩, by decide⟩

/-- A self-referential class that was first met as the type of a field is not registered, and its own references fail afterwards,
while a new loader resolves them. -/
theorem C06_fref_counterexample : ∃ r s1 e s2 r' s3,
    Loads Sample.W Sample.C (fresh []) (.dict [(.str "n", .dict [(.str "v", .int 1), (.str "next", .none)])]) (.obj 8) r s1 ∧
    Raises Sample.W Sample.C s1 (.dict [(.str "v", .int 1), (.str "next", .dict [(.str "v", .int 2), (.str "next", .none)])]) (.obj 7) e s2 ∧
    Loads Sample.W Sample.C (fresh []) (.dict [(.str "v", .int 1), (.str "next", .dict [(.str "v", .int 2), (.str "next", .none)])]) (.obj 7) r' s3 :=
  ⟨_, _, _, _, _, _, ⟨9, rfl⟩, ⟨9, rfl⟩, ⟨9, rfl⟩⟩

/-- `class A: tag: Literal['x']` and `class B: tag: Literal['x']` (dataclasses), in a program that writes both `Union[A, B]` and `Union[B, A]`, which are
equal to Python. -/
def Sample.spelledW : World :=
  { Sample.W with
    cls := fun c => match c with
      | 0 => { kind := .dataclass, name := "A", fields := [{ name := "tag", ty := .lit [.str "x"] }] }
      | _ => { kind := .dataclass, name := "B", fields := [{ name := "tag", ty := .lit [.str "x"] }] }
    unionKey := fun ts => if ts = [.obj 1, .obj 0] then [.obj 0, .obj 1] else ts
    unionKey_perm := fun ts => by
      split
      · rename_i h; subst h; exact .swap _ _ _
      · exact .refl _ }

/-- A new loader loads `{'tag': 'x'}` into `Union[A, B]` as a `B`; a loader that has loaded `Union[B, A]` before returns an `A`, because it remembers the
discriminator of the other union. -/
theorem C06_spelling_counterexample : ∃ r s1 r1 s2 r2 s3,
    Loads Sample.spelledW Sample.C (fresh []) (.dict [(.str "tag", .str "x")]) (.union [.obj 0, .obj 1]) r s1 ∧
    Loads Sample.spelledW Sample.C (fresh []) (.dict [(.str "tag", .str "x")]) (.union [.obj 1, .obj 0]) r1 s2 ∧
    Loads Sample.spelledW Sample.C s2 (.dict [(.str "tag", .str "x")]) (.union [.obj 0, .obj 1]) r2 s3 ∧
    r = .inst 1 [("tag", .str "x")] ∧ r2 = .inst 0 [("tag", .str "x")] :=
  ⟨_, _, _, _, _, _, ⟨9, rfl⟩, ⟨9, rfl⟩, ⟨9, rfl⟩, rfl, rfl⟩

/-- `Union[int, str]` may be written in both orders. -/
example : World.SteadyTags { Sample.W with
    unionKey := fun ts => if ts = [.prim .int, .prim .str] then [.prim .str, .prim .int] else ts
    unionKey_perm := fun ts => by
      split
      · rename_i h; subst h; exact .swap _ _ _
      · exact .refl _ } := by
  have hno : ∀ k ts, (ts = [Ty.prim .int, .prim .str] ∨ ts = [Ty.prim .str, .prim .int]) → ∀ W : World, ∃ u ∈ ts, ¬ HasLiteralField W u k := by
    intro k ts h W
    refine ⟨.prim .int, by rcases h with rfl | rfl <;> simp, ?_⟩
    rintro ⟨c, _, _, h, _⟩
    cases h
  refine ⟨Sample.noHiddenLiteral, fun ts ts' h => ?_⟩
  dsimp only at h
  split at h
  · rename_i h1; exact .inr (fun k => hno k ts (.inl h1) _)
  · split at h
    · exact .inr (fun k => hno k ts (.inr h) _)
    · exact .inl h

/-! ## The hypotheses are met -/

/-- The types met when loading a `Node`. -/
theorem Sample.uses_node {u : Ty} {s : LState} (hs : s = fresh []) (h : Uses Sample.W (namesIn Sample.W s (.obj 7)) (.obj 7) u) :
    u = .obj 7 ∨ u = .prim .int ∨ u = .union [.fref "Node", .prim .none] ∨ u = .fref "Node" ∨ u = .prim .none := by
  subst hs
  induction h with
  | self => exact Or.inl rfl
  | coll _ ih => simp at ih
  | tuple _ _ ih => simp at ih
  | dictKey _ ih => simp at ih
  | dictVal _ ih => simp at ih
  | newtype _ ih => simp at ih
  | enum _ _ ih => simp at ih
  | union _ hu ih =>
    simp at ih; subst ih
    simp at hu; rcases hu with rfl | rfl <;> simp
  | field _ hf ht ih =>
    simp at ih; subst ih
    have hf' : _ ∈ Sample.clsNode.fields := hf
    simp [Sample.clsNode] at hf'
    rcases hf' with rfl | rfl
    · cases ht <;> first | (simp; done) | contradiction
    · cases ht <;> first | (simp; done) | contradiction
  | fref f _ hΓ hn ih =>
    simp at ih; subst ih
    simp only [namesIn, fresh, Option.some.injEq] at hΓ
    subst hΓ
    simp [aget, Sample.W, Sample.cls, Sample.clsNode] at hn
    exact Or.inl hn.symm

/-- Loading nodes does not change how nodes load, whatever the data. -/
example (v : Val) : ∃ r s1, Loads Sample.W Sample.C (fresh []) (.dict [(.str "v", .int 1), (.str "next", .none)]) (.obj 7) r s1 ∧
    ∀ r', (∃ s2, Loads Sample.W Sample.C (fresh []) v (.obj 7) r' s2) ↔ ∃ s2, Loads Sample.W Sample.C s1 v (.obj 7) r' s2 := by
  have hl : ∃ r s1, Loads Sample.W Sample.C (fresh []) (.dict [(.str "v", .int 1), (.str "next", .none)]) (.obj 7) r s1 ∧
      s1.frefs = some [("Node", .obj 7)] := ⟨_, _, ⟨9, rfl⟩, rfl⟩
  obtain ⟨r, s1, hl, hfr⟩ := hl
  refine ⟨r, s1, hl, ?_⟩
  refine (C06_history_partial (show Sample.C.Default from rfl) Sample.notRequiredLaw Sample.steadyTags (s := fresh []) (.new (some []) [])
    (.ok (s := fresh []) (.new (some []) []) hl) ?_ ?_).1
  · refine ⟨by simp [namesIn, fresh, hfr], fun f f' h h' n hu => ?_⟩
    have := Sample.uses_node rfl hu
    simp at this
    subst this
    simp only [namesIn, hfr, Option.some.injEq] at h'
    cases h; cases h'
    rfl
  · refine ⟨fun f n h hu hn => ?_, fun k w hu => ?_, fun k w hu => ?_, fun _ _ _ hu => ?_, fun _ _ _ hu => ?_⟩
    · have := Sample.uses_node rfl hu
      simp at this
      subst this
      cases h
      exact absurd hn (by decide)
    · exact absurd (Sample.uses_node rfl hu) (by simp)
    · exact absurd (Sample.uses_node rfl hu) (by simp)
    · exact absurd (Sample.uses_node rfl hu.uses) (by simp)
    · exact absurd (Sample.uses_node rfl hu.uses) (by simp)

/-- Dictionaries of ints without bools. -/
example : Steady Sample.W Sample.C (namesIn Sample.W (fresh []) (.dict (.prim .str) (.prim .int)))
    (.dict [(.str "a", .str "5")]) (.dict (.prim .str) (.prim .int)) := by
  have hu : ∀ u, Uses Sample.W (namesIn Sample.W (fresh []) (.dict (.prim .str) (.prim .int))) (.dict (.prim .str) (.prim .int)) u →
      u = .dict (.prim .str) (.prim .int) ∨ u = .prim .str ∨ u = .prim .int := by
    intro u h
    induction h <;> simp_all
  have hr : ∀ x k u, Reaches Sample.W Sample.C (namesIn Sample.W (fresh []) (.dict (.prim .str) (.prim .int))) (.dict [(.str "a", .str "5")])
      (.dict (.prim .str) (.prim .int)) x (.dict k u) → x = .dict [(.str "a", .str "5")] := by
    intro x k u h
    generalize hg : Ty.dict k u = w at h
    cases h with
    | self => rfl
    | key h' => have := hu _ h'.uses; simp at this; obtain ⟨rfl, rfl⟩ := this; cases hg
    | val h' => have := hu _ h'.uses; simp at this; obtain ⟨rfl, rfl⟩ := this; cases hg
    | elem h' => have := hu _ h'.uses; simp at this
    | item h' => have := hu _ h'.uses; simp at this
    | member h' => have := hu _ h'.uses; simp at this
    | newtype h' => have := hu _ h'.uses; simp at this
    | hint h' => have := hu _ h'.uses; simp at this
    | field h' => have := hu _ h'.uses; simp at this
    | fref _ h' => have := hu _ h'.uses; simp at this
  refine ⟨fun f n h hn => absurd (hu _ hn) (by simp), fun k w hd => ?_, fun k w hd => ?_, fun d kvs w hd hk p hp b => ?_,
    fun d kvs w hd hk p hp b => ?_⟩
  · have := hu _ hd
    simp at this
    obtain ⟨rfl, rfl⟩ := this
    exact Or.inr (Or.inr ⟨by decide, by decide, by decide, by decide⟩)
  · have := hu _ hd
    simp at this
    obtain ⟨rfl, rfl⟩ := this
    exact Or.inr (Or.inl (by simp))
  · rw [hr _ _ _ hd] at hk
    rcases hk with hk | ⟨_, hk, _⟩
    · cases hk; simp at hp; subst hp; simp
    · cases hk
  · rw [hr _ _ _ hd] at hk
    rcases hk with hk | ⟨_, hk, _⟩
    · cases hk; simp at hp; subst hp; simp
    · cases hk

end TL
