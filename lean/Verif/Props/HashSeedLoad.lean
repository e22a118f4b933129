import Verif.Props.HashSeed
import Verif.Props.Completeness
/-!
# C80: loading and the hash seed
-/

namespace TL

variable {W : World} {C : Config} {order : List String → List String} {hp : ∀ ns, (order ns).Perm ns} {pop : List String → Nat}

/-- What data becomes does not depend on hashes. -/
theorem Converts.reseed {F : String → Ty → Prop} {v : Val} {t : Ty} {r : Val} (h : Converts W C F v t r) : Converts (W.reseed order hp pop) C F v t r := by
  revert h
  refine fun h => Converts.rec (W := W) (C := C) (F := F)
    (motive_1 := fun v t r _ => Converts (W.reseed order hp pop) C F v t r)
    (motive_2 := fun v t r _ => ConvertsItem (W.reseed order hp pop) C F v t r)
    (motive_3 := fun v t r _ => ConvertsElem (W.reseed order hp pop) C F v t r)
    (motive_4 := fun c kvs f o _ => FieldConv (W.reseed order hp pop) C F c kvs f o)
    ?_ ?_ ?_ ?_ ?_ ?_ ?_ ?_ ?_ ?_ ?_ ?_ ?_ ?_ ?_ ?_ ?_ ?_ ?_ ?_ ?_ ?_ ?_ ?_ ?_ ?_ h
  · intros; exact .exact ‹_› ‹_›
  · intros; exact .cast ‹_› ‹_› ‹_› ‹_› ‹_›
  · intros; exact .any
  · intros; exact .lit ‹_› ‹_›
  · intro e v m h; exact .enum h
  · intro e v u x m h1 h2 _ h3 ih; exact .hint h1 h2 ih h3
  · intro k v r h; exact .dt h
  · intro v r h; exact .timedelta h
  · intro a v r h; exact .pattern h
  · intro c v r h1 h2; exact .strcons h1 h2
  · intro k t v l h1 h2 h3 _ ih; exact .coll h1 h2 h3 ih
  · intro k t v l h1 h2 h3 _ h4 ih; exact .set h1 h2 h3 ih h4
  · intro v l rest h1 h2 h3 _ ih; exact .tuple h1 h2 h3 ih
  · intro kt vt v l h1 _ _ h2 ih1 ih2; exact .dict h1 ih1 ih2 h2
  · intro ts u v r h1 h2 _ ih; exact .union h1 h2 ih
  · intro n u v r h1 _ ih; exact .fref h1 ih
  · intro n u v r _ ih; exact .newtype ih
  · intro c v kvs l h1 h2 h3 h4 h5 _ h6 ih; exact .typeddict h1 h2 h3 h4 h5 ih h6
  · intro c v kvs r l h1 h2 h3 h4 _ h5 ih; exact .obj h1 h2 h3 h4 ih h5
  · intro v t r h1 _ ih; exact .conv h1 ih
  · intro t v h; exact .keep h
  · intro v t r _ ih; exact .conv ih
  · intro p v h1 h2; exact .keep h1 h2
  · intro c kvs f x t y h1 h2 h3 _ ih; exact .loaded h1 h2 h3 ih
  · intro c kvs f d h1 h2; exact .default h1 h2
  · intro c kvs f h1 h2 h3 h4; exact .unset h1 h2 h3 h4

theorem Converts.unseed {F : String → Ty → Prop} {v : Val} {t : Ty} {r : Val} (h : Converts (W.reseed order hp pop) C F v t r) : Converts W C F v t r :=
  h.reseed (order := W.setOrder) (hp := W.setOrder_perm) (pop := W.popChoice)

theorem ConvertsItem.unseed {F : String → Ty → Prop} {v : Val} {t : Ty} {r : Val} (h : ConvertsItem (W.reseed order hp pop) C F v t r) : ConvertsItem W C F v t r := by
  cases h with
  | conv h1 h2 => exact .conv h1 h2.unseed
  | keep h => exact .keep h

theorem ConvertsElem.unseed {F : String → Ty → Prop} {v : Val} {t : Ty} {r : Val} (h : ConvertsElem (W.reseed order hp pop) C F v t r) : ConvertsElem W C F v t r := by
  cases h with
  | conv h => exact .conv h.unseed
  | keep h1 h2 => exact .keep h1 h2

theorem Meets.unseed {s : LState} {t u : Ty} (h : Meets (W.reseed order hp pop) C s t u) : Meets W C s t u := by
  induction h with
  | self => exact .self
  | known h => exact .known h
  | coll _ ih => exact .coll ih
  | tuple _ h ih => exact .tuple ih h
  | dictKey _ ih => exact .dictKey ih
  | dictVal _ ih => exact .dictVal ih
  | union _ h ih => exact .union ih h
  | newtype _ ih => exact .newtype ih
  | enum _ h ih => exact .enum ih h
  | field _ h1 h2 ih => exact .field ih h1 h2
  | custom h1 _ h2 ih => exact .custom h1 ih h2

theorem Served.reseed {t : Ty} {h : Handler} (hs : Served W C t h) : Served (W.reseed order hp pop) C t h := by
  cases hs <;> constructor <;> assumption

theorem evalCond_reseed (c : Cond) (t : Ty) : evalCond (W.reseed order hp pop) C c t = evalCond W C c t := by
  cases c <;> rfl

theorem pick_reseed (t : Ty) : pick (W.reseed order hp pop) C t = pick W C t := by
  have : ∀ l i, indexFrom (W.reseed order hp pop) C t l i = indexFrom W C t l i := by
    intro l
    induction l with
    | nil => intro i; rfl
    | cons p l ih =>
      intro i
      obtain ⟨c, h⟩ := p
      simp only [indexFrom, evalCond_reseed, ih]
  unfold pick index
  rw [this]

theorem Unhashy.unseed {F : String → Ty → Prop} {t : Ty} (h : Unhashy (W.reseed order hp pop) C F t) : Unhashy W C F t := by
  induction h with
  | any => exact .any
  | lit => exact .lit
  | list => exact .list
  | set => exact .set
  | elem _ ih => exact .elem ih
  | tuple h _ ih => exact .tuple h ih
  | dict => exact .dict
  | union h _ ih => exact .union h ih
  | newtype _ ih => exact .newtype ih
  | fref h _ ih => exact .fref h ih
  | typeddict h => exact .typeddict h
  | inst h1 h2 => exact .inst h1 h2
  | field h1 h2 _ ih => exact .field h1 h2 ih
  | default h1 h2 h3 => exact .default h1 h2 h3
  | init h1 h2 h3 h4 => exact .init h1 h2 h3 h4
  | user h1 h2 h3 => exact .user (by rw [← pick_reseed]; exact h1) h2 h3

theorem Culprit.unseed {F : String → Ty → Prop} {v : Val} {t : Ty} (h : Culprit (W.reseed order hp pop) C F v t) : Culprit W C F v t := by
  induction h with
  | tuple h => exact .tuple h
  | tag h => exact .tag h
  | keyHash h1 h2 h3 => exact .keyHash h1 h2 h3.unseed
  | extraKey h1 h2 h3 h4 => exact .extraKey h1 h2 h3 h4
  | constructor h1 h2 => exact .constructor h1 h2
  | converter h1 h2 h3 h4 h5 => exact .converter h1 h2 h3 h4 h5
  | date h1 h2 => exact .date h1 h2
  | timedelta h1 h2 => exact .timedelta h1 h2
  | pattern h1 h2 h3 => exact .pattern h1 h2 h3
  | bare => exact .bare
  | user h1 h2 h3 => exact .user (by rw [← pick_reseed]; exact h1) h2 h3
  | asked h1 h2 _ ih => exact .asked (by rw [← pick_reseed]; exact h1) h2 ih
  | member h1 _ ih => exact .member h1 ih
  | newtype _ ih => exact .newtype ih
  | fref h _ ih => exact .fref h ih
  | key h1 h2 _ ih => exact .key h1 h2 ih
  | value h1 h2 _ ih => exact .value h1 h2 ih
  | field h1 h2 h3 h4 _ ih => exact .field h1 h2 h3 h4 ih

theorem Regular.reseed {s : LState} {v : Val} {t : Ty} (h : Regular W C s v t) : Regular (W.reseed order hp pop) C s v t where
  names n u h1 h2 h3 := h.names n u h1.unseed h2.unseed h3
  dicts kt vt h1 := h.dicts kt vt h1.unseed
  supported u h1 := by
    obtain ⟨hh, h2⟩ := h.supported u (h1.imp (fun ⟨k, h⟩ => ⟨k, h.unseed⟩) (Or.imp (fun ⟨k, h⟩ => ⟨k, h.unseed⟩) (fun ⟨k, h⟩ => ⟨k, h.unseed⟩)))
    exact ⟨hh, h2.reseed⟩
  ints kt vt h1 := h.ints kt vt h1.unseed
  classes c h1 := h.classes c h1.unseed
  converters c h1 := h.converters c h1.unseed
  namespaces c h1 := h.namespaces c h1.unseed
  unions ts x h1 h2 h3 := h.unions ts x h1.unseed h2 h3.unseed

theorem Consistent.reseed {s : LState} {v : Val} {t : Ty} (h : Consistent W C s v t) : Consistent (W.reseed order hp pop) C s v t where
  toRegular := h.toRegular.reseed
  sets k u h1 h2 x a b h3 h4 h5 := h.sets k u h1.unseed h2 x a b h3 h4.unseed h5.unseed
  keys kt vt h1 x a b h3 h4 h5 := h.keys kt vt h1.unseed x a b h3 h4.unseed h5.unseed
  enums e u h1 h2 x a b m h3 h4 h5 h6 := h.enums e u h1.unseed h2 x a b m h3 h4.unseed h5.unseed h6
  inits c h1 := (h.inits c h1.unseed).imp id (fun h2 f hf u hu x a b h3 h4 h5 => h2 f hf u hu x a b h3 h4.unseed h5.unseed)

theorem Unambiguous.reseed {s : LState} {v : Val} {t : Ty} (h : Unambiguous W C s v t) : Unambiguous (W.reseed order hp pop) C s v t where
  unions ts x u u' a b h1 h2 h3 h4 h5 h6 h7 := h.unions ts x u u' a b h1.unseed h2 h3 h4 h5 h6.unseed h7.unseed
  hints e x u u' a b m m' h1 h2 h3 h4 h5 h6 h7 h8 := h.hints e x u u' a b m m' h1.unseed h2 h3 h4 h5.unseed h6.unseed h7 h8
  bools h1 := h.bools (h1.imp (fun ⟨w, h⟩ => ⟨w, h.unseed⟩) (fun ⟨w, h⟩ => ⟨w, h.unseed⟩))

theorem Lawful.reseed (h : W.Lawful) : (W.reseed order hp pop).Lawful := ⟨h.1, h.2, h.3, h.4⟩
theorem NeverStops.reseed (h : W.NeverStops) : (W.reseed order hp pop).NeverStops := by
  cases h; constructor <;> assumption
theorem NotRequiredLaw.reseed (h : W.NotRequiredLaw) : (W.reseed order hp pop).NotRequiredLaw := h

theorem Mixed.usual_reseed {t : Ty} (h : C.Usual W t) : C.Usual (W.reseed order hp pop) t := by
  unfold Config.Usual at *
  rw [pick_reseed, pick_reseed]; exact h

theorem CalmConditions.reseed (h : CalmConditions W C) : CalmConditions (W.reseed order hp pop) C := h

section
variable (hm : C.Mixed) (hcc : CalmConditions W C) (hW : W.NeverStops) (hl : W.Lawful) (hlaw : W.NotRequiredLaw) (hdbg : C.uniondebugconflict = false)
include hm hcc hW hl hlaw hdbg

/-- **C80** (partial), with handlers of the user for other types. -/
theorem C80_accepts_user_partial {s s1 s2 : LState} (hs : Reachable W C s) (hs' : Reachable (W.reseed order hp pop) C s) {v : Val} {t : Ty}
    (hus : ∀ u, Meets W C s t u → C.Usual W u) (hc : Consistent W C s v t)
    (hv : KeysDistinct C v) {r : Val} (h : Loads W C s v t r s1) {e : Exc} : ¬ Raises (W.reseed order hp pop) C s v t e s2 := fun he =>
  C74_refused_user_partial hm hcc.reseed (NeverStops.reseed hW) (Lawful.reseed hl) (NotRequiredLaw.reseed hlaw) hdbg hs'
    (fun u hu => Mixed.usual_reseed (hus u hu.unseed)) hc.reseed hv he r
    (loads_converts_user hm hcc hW hl hlaw hdbg hs hus hc hv h).reseed

/-- **C80** (partial), with handlers of the user for other types: what is loaded is the same in every process. -/
theorem C80_load_user_partial {s s1 s2 : LState} (hs : Reachable W C s) (hs' : Reachable (W.reseed order hp pop) C s) {v : Val} {t : Ty}
    (hus : ∀ u, Meets W C s t u → C.Usual W u) (hreg : Regular W C s v t)
    (hu : Unambiguous W C s v t) (hv : KeysDistinct C v) {r1 r2 : Val} (h1 : Loads W C s v t r1 s1) (h2 : Loads (W.reseed order hp pop) C s v t r2 s2) : r1 = r2 := by
  have hc := hu.consistent hv hreg
  have h3 := loads_converts_user hm hcc hW hl hlaw hdbg hs hus hc hv h1
  have h4 := (loads_converts_user hm hcc.reseed (NeverStops.reseed hW) (Lawful.reseed hl) (NotRequiredLaw.reseed hlaw) hdbg hs'
    (fun u hu => Mixed.usual_reseed (hus u hu.unseed)) hc.reseed hv h2).unseed
  exact h3.unique hv hreg.classes hu .self .self _ h4
end

section
variable (hd : C.Default) (hW : W.NeverStops) (hl : W.Lawful) (hlaw : W.NotRequiredLaw) (hdbg : C.uniondebugconflict = false)
include hd hW hl hlaw hdbg

/-- **C80** (partial). Data that is accepted in one process is not refused in another one, whatever the string hashes are.  For new loaders, or loaders in the
same state.  Missing: as in `C74_refused_partial`. -/
theorem C80_accepts_partial {s s1 s2 : LState} (hs : Reachable W C s) (hs' : Reachable (W.reseed order hp pop) C s) {v : Val} {t : Ty} (hc : Consistent W C s v t)
    (hv : KeysDistinct C v) {r : Val} (h : Loads W C s v t r s1) {e : Exc} : ¬ Raises (W.reseed order hp pop) C s v t e s2 :=
  C80_accepts_user_partial hd.mixed hd.calm hW hl hlaw hdbg hs hs' (fun _ _ => hd.usual) hc hv h

/-- **C80** (partial). What is loaded is the same in every process, when the annotations are unambiguous for the data.  Missing: ambiguous annotations
(`C80_seed_counterexample`), and as in `C74_refused_partial`. -/
theorem C80_load_partial {s s1 s2 : LState} (hs : Reachable W C s) (hs' : Reachable (W.reseed order hp pop) C s) {v : Val} {t : Ty} (hreg : Regular W C s v t)
    (hu : Unambiguous W C s v t) (hv : KeysDistinct C v) {r1 r2 : Val} (h1 : Loads W C s v t r1 s1) (h2 : Loads (W.reseed order hp pop) C s v t r2 s2) : r1 = r2 :=
  C80_load_user_partial hd.mixed hd.calm hW hl hlaw hdbg hs hs' (fun _ _ => hd.usual) hreg hu hv h1 h2
end

/-- The hypotheses of `C80_load_user_partial`: whatever the data, two processes with the same handler of the user never load different lists of optional integers. -/
example (v : Val) (hv : KeysDistinct Sample.CB v) (r1 r2 : Val) (s1 s2 : LState)
    (h1 : Loads Sample.WB Sample.CB (fresh []) v (.coll .list (.union [.prim .int, .prim .none])) r1 s1)
    (h2 : Loads (Sample.WB.reseed List.reverse (fun ns => List.reverse_perm ns) (fun _ => 1)) Sample.CB (fresh []) v
      (.coll .list (.union [.prim .int, .prim .none])) r2 s2) : r1 = r2 :=
  C80_load_user_partial Sample.mixedB Sample.calmB ⟨Sample.neverStops.1, Sample.neverStops.2, Sample.neverStops.3, Sample.neverStops.4⟩
    Sample.lawfulB (fun c => Sample.notRequiredLaw c) rfl (.new (some []) []) (.new (some []) [])
    (fun u hu => by rcases Sample.meets_optional hu with rfl | rfl | rfl | rfl <;> rfl)
    (Sample.regular_optional v) (Sample.unambiguous_optional v) hv h1 h2

-- the hypotheses are met: whatever the data, two processes with new loaders never load different nodes
example (v : Val) (hv : KeysDistinct Sample.C v) (r1 r2 : Val) (s1 s2 : LState) (h1 : Loads Sample.W Sample.C (fresh []) v (.obj 7) r1 s1)
    (h2 : Loads Sample.WR Sample.C (fresh []) v (.obj 7) r2 s2) : r1 = r2 :=
  C80_load_partial (order := List.reverse) (hp := fun ns => List.reverse_perm ns) (pop := fun _ => 1) (show Sample.C.Default from rfl) Sample.neverStops
    Sample.lawful Sample.notRequiredLaw rfl (.new (some []) []) (.new (some []) []) (Sample.regular_node v) (Sample.unambiguous_node v) hv h1 h2

example : ∃ r s1, Loads Sample.W Sample.C (fresh []) (.dict [(.str "v", .int 1), (.str "next", .none)]) (.obj 7) r s1 := ⟨_, _, 9, rfl⟩

-- and without Namespaces in the data, what one process loads into `Dict[str, List[P]]` the other does not refuse
example (v : Val) (hn : ∀ fs, ¬ Within v (.ns fs)) (hv : KeysDistinct Sample.C v) (r : Val) (s1 s2 : LState) (e : Exc)
    (h : Loads Sample.W Sample.C (fresh []) v (.dict (.prim .str) (.coll .list (.obj 0))) r s1) :
    ¬ Raises Sample.WR Sample.C (fresh []) v (.dict (.prim .str) (.coll .list (.obj 0))) e s2 :=
  C80_accepts_partial (order := List.reverse) (hp := fun ns => List.reverse_perm ns) (pop := fun _ => 1) (show Sample.C.Default from rfl) Sample.neverStops
    Sample.lawful Sample.notRequiredLaw rfl (.new (some []) []) (.new (some []) []) (Sample.consistent_dict hn) hv h

/-- Three dataclasses with two fields annotated with a Literal: `k` is `'x'` in all of them, `m` is `'a'` in the first two and `'b'` in the third. -/
def Sample.clsTwo (c : Nat) : ClassDef :=
  { kind := .dataclass, name := "T", fields := [{ name := "k", ty := .lit [.str "x"] }, { name := "m", ty := .lit [.str (if c < 2 then "a" else "b")] }] }

/-- The program with these classes. -/
def Sample.WTwo : World := { Sample.W with cls := Sample.clsTwo }

/-- **C80** Where the members of a union have two Literal fields in common, `set.pop` chooses the discriminator, and with it the member that is tried first:
`load({'k': 'x', 'm': 'a'}, Union[A, B, C])` is an `A` in one process and a `B` in another one. -/
theorem C80_seed_counterexample : ∃ (W : World) (C : Config) (pop : List String → Nat) (v : Val) (t : Ty) (r1 r2 : Val), C.Default ∧
    (∃ s', Loads W C (fresh []) v t r1 s') ∧ (∃ s', Loads (W.reseed W.setOrder W.setOrder_perm pop) C (fresh []) v t r2 s') ∧ typeOf r1 = .obj 0 ∧ typeOf r2 = .obj 1 :=
  ⟨Sample.WTwo, Sample.C, fun _ => 1, .dict [(.str "k", .str "x"), (.str "m", .str "a")], .union [.obj 0, .obj 1, .obj 2], .inst 0 [("k", .str "x"), ("m", .str "a")],
    .inst 1 [("k", .str "x"), ("m", .str "a")], rfl, ⟨_, 9, rfl⟩, ⟨_, 9, rfl⟩, rfl, rfl⟩

/-- **C80** The same for errors: where the value of one of the two fields is not hashable, one process fails with an AssertionError (a TypeError inside), the other one with an exception of
typedload. -/
theorem C80_error_counterexample : ∃ (W : World) (C : Config) (pop : List String → Nat) (v : Val) (t : Ty) (e1 e2 : Exc), C.Default ∧
    (∃ s', Raises W C (fresh []) v t e1 s') ∧ (∃ s', Raises (W.reseed W.setOrder W.setOrder_perm pop) C (fresh []) v t e2 s') ∧ e1.isTL = false ∧ e2.isTL = true :=
  ⟨Sample.WTwo, Sample.C, fun _ => 1, .dict [(.str "k", .list []), (.str "m", .str "a")], .union [.obj 0, .obj 1, .obj 2], _,
    _, rfl, ⟨_, 9, rfl⟩, ⟨_, 9, rfl⟩, rfl, rfl⟩

end TL
