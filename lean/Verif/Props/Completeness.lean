import Verif.Lemmas.Unique
import Verif.Props.Conversion
/-!
# C74: data is accepted exactly when it has a conversion
-/

namespace TL

variable {W : World} {C : Config}

/-- The loader that starts to load into `t` knows exactly the names of `namesIn`. -/
theorem good_named {s : LState} (hs : Reachable W C s) {t : Ty} {h : Handler} (hp : pick W C t = .ok h) :
    Good W C ⟨fun n u => Meets W C s t u ∧ Known W s n u, Means (namesIn W s t)⟩ (cacheReg W t h s) := by
  have h1 := (hs.good_meets t).cacheReg (Meets.closed s t) .self hp
  refine ⟨h1.coh, h1.bound, ?_⟩
  rintro n u ⟨f, h2, h3⟩
  unfold namesIn at h2
  cases hf : s.frefs with
  | none => rw [hf] at h2; cases h2
  | some fr =>
    rw [hf] at h2
    cases h2
    obtain ⟨fr', h4, h5⟩ := (cacheReg_frefs (W := W) t h s).2 fr hf
    exact ⟨fr', h4, by rw [h5 n]; exact h3⟩

theorem Meets.closed_named (s : LState) (t : Ty) :
    Closed W C (Meets W C s t) ⟨fun n u => Meets W C s t u ∧ Known W s n u, Means (namesIn W s t)⟩ := by
  have h := Meets.closed (W := W) (C := C) s t
  exact ⟨h.coll, h.tuple, h.dictKey, h.dictVal, h.union, h.newtype, h.enum, h.field, h.custom, h.names, h.bound⟩

/-- Every call returns, raises or runs forever. -/
theorem outcome_cases (W : World) (C : Config) (s : LState) (v : Val) (t : Ty) :
    (∃ r s', Loads W C s v t r s') ∨ (∃ e s', Raises W C s v t e s') ∨ Diverges W C s v t := by
  by_cases hd : Diverges W C s v t
  · exact Or.inr (Or.inr hd)
  · unfold Diverges at hd
    simp only [Classical.not_forall] at hd
    obtain ⟨n, hn⟩ := hd
    cases hx : load W C n v t s with
    | ok r s' => exact Or.inl ⟨r, s', n, hx⟩
    | err e s' => exact Or.inr (Or.inl ⟨e, s', n, hx⟩)
    | div => exact absurd hx hn

section
variable (hm : C.Mixed) (hcc : CalmConditions W C) (hW : W.NeverStops) (hl : W.Lawful) (hlaw : W.NotRequiredLaw) (hdbg : C.uniondebugconflict = false)
include hm hcc hW hl hlaw hdbg

/-- **C74** (partial), with handlers of the user for other types.  Data that is refused has no conversion. -/
theorem C74_refused_user_partial {s s' : LState} (hs : Reachable W C s) {v : Val} {t : Ty} (hus : ∀ u, Meets W C s t u → C.Usual W u)
    (hc : Consistent W C s v t) (hv : KeysDistinct C v) {e : Exc}
    (h : Raises W C s v t e s') (r : Val) : ¬ Converts W C (Means (namesIn W s t)) v t r := by
  rcases (raises_iff hs.coh).1 h with ⟨n, hh, e', hp, hr, rfl⟩ | ⟨c, hp, rfl, _⟩
  · have := ((Sat.run (Meets.closed_named s t) (refuse_step hm hcc hW hl hlaw hdbg hus hc hv) n hh v t (pick_installed hp) .self _ (good_named hs hp)).err hr).2
    exact this.2.2 hp .self e' rfl r
  · exact no_handler (hus _ .self) hp

/-- What is loaded is a conversion, forward references meaning what the loader knows when the call starts (with handlers of the user for other types). -/
theorem loads_converts_user {s s' : LState} (hs : Reachable W C s) {v : Val} {t : Ty} (hus : ∀ u, Meets W C s t u → C.Usual W u)
    (hc : Consistent W C s v t) (hv : KeysDistinct C v) {r : Val}
    (h : Loads W C s v t r s') : Converts W C (Means (namesIn W s t)) v t r := by
  obtain ⟨n, hh, hp, hr⟩ := (loads_iff hs.coh).1 h
  have := ((Sat.run (Meets.closed_named s t) (refuse_step hm hcc hW hl hlaw hdbg hus hc hv) n hh v t (pick_installed hp) .self _ (good_named hs hp)).ok hr).2
  exact (this.1 hp hv).1 r rfl

/-- **C74** (partial), with handlers of the user for other types.  Data is accepted if and only if it has a conversion, when the load terminates. -/
theorem C74_accepts_iff_user_partial {s : LState} (hs : Reachable W C s) {v : Val} {t : Ty} (hus : ∀ u, Meets W C s t u → C.Usual W u)
    (hc : Consistent W C s v t) (hv : KeysDistinct C v)
    (hterm : ¬ Diverges W C s v t) : (∃ r s', Loads W C s v t r s') ↔ ∃ r, Converts W C (Means (namesIn W s t)) v t r := by
  constructor
  · rintro ⟨r, s', h⟩
    exact ⟨r, loads_converts_user hm hcc hW hl hlaw hdbg hs hus hc hv h⟩
  · rintro ⟨r, h⟩
    rcases outcome_cases W C s v t with h' | ⟨e, s', h'⟩ | h'
    · exact h'
    · exact absurd h (C74_refused_user_partial hm hcc hW hl hlaw hdbg hs hus hc hv h' r)
    · exact absurd h' hterm

/-- **C74** (partial), with handlers of the user for other types.  What `load` returns is determined by the annotations. -/
theorem C74_exact_user_partial {s : LState} (hs : Reachable W C s) {v : Val} {t : Ty} (hus : ∀ u, Meets W C s t u → C.Usual W u)
    (hreg : Regular W C s v t) (hu : Unambiguous W C s v t)
    (hv : KeysDistinct C v) (hterm : ¬ Diverges W C s v t) (r : Val) :
    (∃ s', Loads W C s v t r s') ↔ Converts W C (Means (namesIn W s t)) v t r := by
  have hc := hu.consistent hv hreg
  constructor
  · rintro ⟨s', h⟩; exact loads_converts_user hm hcc hW hl hlaw hdbg hs hus hc hv h
  · intro h
    obtain ⟨r', s', h'⟩ := (C74_accepts_iff_user_partial hm hcc hW hl hlaw hdbg hs hus hc hv hterm).2 ⟨r, h⟩
    rw [h.unique hv hreg.classes hu .self .self _ (loads_converts_user hm hcc hW hl hlaw hdbg hs hus hc hv h')]
    exact ⟨s', h'⟩

/-- **C74** (partial).  Two loaders, with whatever was loaded before, that know the same names return the same value for the same data, whatever handlers
for other types they have. -/
theorem C74_history_user_partial {s₁ s₂ s₁' s₂' : LState} (hs₁ : Reachable W C s₁) (hs₂ : Reachable W C s₂) {v : Val} {t : Ty}
    (hus₁ : ∀ u, Meets W C s₁ t u → C.Usual W u) (hus₂ : ∀ u, Meets W C s₂ t u → C.Usual W u) (hnames : namesIn W s₁ t = namesIn W s₂ t)
    (hreg₁ : Regular W C s₁ v t) (hreg₂ : Regular W C s₂ v t) (hu₁ : Unambiguous W C s₁ v t) (hu₂ : Unambiguous W C s₂ v t)
    (hv : KeysDistinct C v) {r₁ r₂ : Val} (h₁ : Loads W C s₁ v t r₁ s₁') (h₂ : Loads W C s₂ v t r₂ s₂') : r₁ = r₂ := by
  have c₁ := loads_converts_user hm hcc hW hl hlaw hdbg hs₁ hus₁ (hu₁.consistent hv hreg₁) hv h₁
  have c₂ := loads_converts_user hm hcc hW hl hlaw hdbg hs₂ hus₂ (hu₂.consistent hv hreg₂) hv h₂
  rw [← hnames] at c₂
  exact c₁.unique hv hreg₁.classes hu₁ .self .self _ c₂
end

section
variable (hd : C.Default) (hW : W.NeverStops) (hl : W.Lawful) (hlaw : W.NotRequiredLaw) (hdbg : C.uniondebugconflict = false)
include hd hW hl hlaw hdbg

/-- **C74** (partial). Data that is refused has no conversion: when `load(v, t)` raises, no value is the conversion of `v` to `t`, place by place (in the
sense of C73).  For every value, type, configuration with the default handlers (and `uniondebugconflict` off) and history of the loader.
Missing: the defects and ambiguities excluded by `Consistent` (`C74_hash_counterexample`, `C74_namespace_counterexample`, `C74_tuple_counterexample`). -/
theorem C74_refused_partial {s s' : LState} (hs : Reachable W C s) {v : Val} {t : Ty} (hc : Consistent W C s v t) (hv : KeysDistinct C v) {e : Exc}
    (h : Raises W C s v t e s') (r : Val) : ¬ Converts W C (Means (namesIn W s t)) v t r :=
  C74_refused_user_partial hd.mixed hd.calm hW hl hlaw hdbg hs (fun _ _ => hd.usual) hc hv h r

/-- What is loaded is a conversion, forward references meaning what the loader knows when the call starts. -/
theorem loads_converts {s s' : LState} (hs : Reachable W C s) {v : Val} {t : Ty} (hc : Consistent W C s v t) (hv : KeysDistinct C v) {r : Val}
    (h : Loads W C s v t r s') : Converts W C (Means (namesIn W s t)) v t r :=
  loads_converts_user hd.mixed hd.calm hW hl hlaw hdbg hs (fun _ _ => hd.usual) hc hv h

/-- **C74** (partial). Data is accepted if and only if it has a conversion, when the load terminates (C45).  Missing: as in `C74_refused_partial`. -/
theorem C74_accepts_iff_partial {s : LState} (hs : Reachable W C s) {v : Val} {t : Ty} (hc : Consistent W C s v t) (hv : KeysDistinct C v)
    (hterm : ¬ Diverges W C s v t) : (∃ r s', Loads W C s v t r s') ↔ ∃ r, Converts W C (Means (namesIn W s t)) v t r :=
  C74_accepts_iff_user_partial hd.mixed hd.calm hW hl hlaw hdbg hs (fun _ _ => hd.usual) hc hv hterm

/-- **C74** (partial). **What `load` returns is determined by the annotations**: when they are unambiguous for the data, `load(v, t)` returns `r` if and
only if `r` is the conversion of `v` to `t`, whatever was loaded before.  Missing: as in `C74_refused_partial`. -/
theorem C74_exact_partial {s : LState} (hs : Reachable W C s) {v : Val} {t : Ty} (hreg : Regular W C s v t) (hu : Unambiguous W C s v t)
    (hv : KeysDistinct C v) (hterm : ¬ Diverges W C s v t) (r : Val) :
    (∃ s', Loads W C s v t r s') ↔ Converts W C (Means (namesIn W s t)) v t r :=
  C74_exact_user_partial hd.mixed hd.calm hW hl hlaw hdbg hs (fun _ _ => hd.usual) hreg hu hv hterm r
end

/-- Loading any data (without Namespaces) into `Dict[str, List[P]]` meets the conditions. -/
theorem Sample.regular_dict {v : Val} (hv : ∀ fs, ¬ Within v (.ns fs)) :
    Regular Sample.W Sample.C (fresh []) v (.dict (.prim .str) (.coll .list (.obj 0))) where
  names n u h := by have := Sample.meets_dict h; simp at this
  dicts kt vt h := by
    have := Sample.meets_dict h; simp at this
    obtain ⟨rfl, rfl⟩ := this; exact Or.inl rfl
  supported u h := by
    rcases h with ⟨k, h⟩ | ⟨k, h⟩ | ⟨k, h⟩ <;> have := Sample.meets_dict h <;> simp at this
    · obtain ⟨rfl, rfl⟩ := this; exact ⟨_, .dataclass rfl⟩
    · obtain ⟨rfl, rfl⟩ := this; exact ⟨_, .basic (by decide) (by decide)⟩
    · obtain ⟨rfl, rfl⟩ := this; exact ⟨_, .list⟩
  ints kt vt h hi := by
    have := Sample.meets_dict h; simp at this
    obtain ⟨rfl, rfl⟩ := this; simp at hi
  classes c h := by
    have := Sample.meets_dict h; simp at this; subst this
    constructor <;> decide
  converters c h hk := by
    have := Sample.meets_dict h; simp at this; subst this; cases hk
  namespaces c h _ := hv
  unions ts x h := by have := Sample.meets_dict h; simp at this

theorem Sample.consistent_dict {v : Val} (hv : ∀ fs, ¬ Within v (.ns fs)) :
    Consistent Sample.W Sample.C (fresh []) v (.dict (.prim .str) (.coll .list (.obj 0))) where
  toRegular := Sample.regular_dict hv
  sets k u h hk := by
    have := Sample.meets_dict h; simp at this
    obtain ⟨rfl, rfl⟩ := this; cases hk
  keys kt vt h x a b _ ha hb := by
    have := Sample.meets_dict h; simp at this
    obtain ⟨rfl, rfl⟩ := this
    have key : ∀ {a}, ConvertsElem Sample.W Sample.C (Means (namesIn Sample.W (fresh []) (.dict (.prim .str) (.coll .list (.obj 0))))) x (.prim .str) a →
        Sample.W.hash a = true := by
      intro a ha
      cases ha with
      | conv h => cases h with
        | exact _ h => cases x <;> first | (cases h; done) | rfl
        | cast _ _ _ _ h =>
          have := Sample.lawful.prim _ _ _ h
          cases a <;> first | (cases this; done) | rfl
      | keep _ h => cases x <;> first | (cases h; done) | rfl
    rw [key ha, key hb]
  enums e u h := by have := Sample.meets_dict h; simp at this
  inits c h := Or.inl (fun fs => ⟨fs, rfl⟩)

/-- The hypotheses of `C74_refused_partial` and `C74_accepts_iff_partial` hold for all data without Namespaces; some of it is refused. -/
example : Sample.C.Default ∧ Sample.W.NeverStops ∧ Sample.W.Lawful ∧ Sample.W.NotRequiredLaw ∧ Sample.C.uniondebugconflict = false ∧
    Reachable Sample.W Sample.C (fresh []) ∧ (∃ e s', Raises Sample.W Sample.C (fresh [])
      (.dict [(.str "k", .list [.dict [(.str "x", .str "z"), (.str "zed", .str "q")]])]) (.dict (.prim .str) (.coll .list (.obj 0))) e s') ∧
    ∃ r s', Loads Sample.W Sample.C (fresh []) (.dict [(.str "k", .tuple [.dict [(.str "x", .str "5"), (.str "zed", .str "q")]])])
      (.dict (.prim .str) (.coll .list (.obj 0))) r s' :=
  ⟨rfl, Sample.neverStops, Sample.lawful, Sample.notRequiredLaw, rfl, .new _ _, ⟨_, _, 9, rfl⟩, ⟨_, _, 9, rfl⟩⟩

theorem Sample.node_name {u : Ty} (h : Sample.W.tyName u = some "Node") : u = .obj 7 := by
  cases u <;> simp [Sample.W] at h
  case prim p => cases p <;> simp at h
  case obj c =>
    unfold Sample.cls at h
    split at h <;> try (first | rfl | (revert h; decide))
    exfalso
    have h : "Empty" ++ toString c = "Node" := h
    have := congrArg String.toList h
    simp at this

theorem Sample.node_culprit {x : Val} {t : Ty} (h : Culprit Sample.W Sample.C (Known Sample.W (fresh [])) x t) :
    ¬ (t = .obj 7 ∨ t = .prim .int ∨ t = .union [.fref "Node", .prim .none] ∨ t = .fref "Node" ∨ t = .prim .none) := by
  have hnc : ∀ t i, pick Sample.W Sample.C t ≠ .ok (.custom i) := fun t i h => absurd (pick_installed h) (not_installed (C := Sample.C) rfl _)
  induction h with
  | tuple => simp
  | tag h =>
    simp; rintro rfl
    obtain ⟨_, _, _, _, h, _⟩ := h
    obtain ⟨_, _, _, h, _⟩ := h (.prim .none) (by simp)
    cases h
  | keyHash => simp
  | extraKey h => cases h
  | constructor h => cases h
  | converter h => simp; rintro rfl; cases h
  | date => simp
  | timedelta => simp
  | pattern => simp
  | bare => simp
  | user h => exact absurd h (hnc _ _)
  | asked h => exact absurd h (hnc _ _)
  | member hu _ ih => simp; rintro rfl; simp at hu; rcases hu with rfl | rfl <;> simp at ih
  | newtype => simp
  | fref hk _ ih =>
    simp; rintro rfl
    rcases hk with ⟨fr, h1, h2⟩ | hk
    · cases h1; cases h2
    · rw [Sample.node_name hk] at ih; simp at ih
  | key => simp
  | value => simp
  | field _ _ hf ht _ ih =>
    simp; rintro rfl
    have hf' : _ ∈ Sample.clsNode.fields := hf
    simp [Sample.clsNode] at hf'
    rcases hf' with rfl | rfl <;> (cases ht <;> first | (simp at ih; done) | contradiction)

theorem Sample.node_means : Means (namesIn Sample.W (fresh []) (.obj 7)) "Node" (.obj 7) := ⟨_, rfl, rfl⟩

/-- Loading any data at all into the recursive class `Node` meets the conditions. -/
theorem Sample.regular_node (v : Val) : Regular Sample.W Sample.C (fresh []) v (.obj 7) where
  names n u h hu hn := by
    have := Sample.meets_node h; simp at this; subst this
    rw [Sample.node_name hn]; exact Sample.node_means
  dicts kt vt h := by have := Sample.meets_node h; simp at this
  supported u h := by rcases h with ⟨k, h⟩ | ⟨k, h⟩ | ⟨k, h⟩ <;> have := Sample.meets_node h <;> simp at this
  ints kt vt h := by have := Sample.meets_node h; simp at this
  classes c h := by
    have := Sample.meets_node h; simp at this; subst this
    constructor <;> decide
  converters c h hk := by have := Sample.meets_node h; simp at this; subst this; cases hk
  namespaces c h hf := by
    have := Sample.meets_node h; simp at this; subst this
    obtain ⟨f, hf, hr⟩ := hf
    have hf' : _ ∈ Sample.clsNode.fields := hf
    simp [Sample.clsNode] at hf'
    rcases hf' with rfl | rfl <;> exact absurd rfl hr
  unions ts x h _ hc := Sample.node_culprit hc (Sample.meets_node h)

theorem Sample.unambiguous_node (v : Val) : Unambiguous Sample.W Sample.C (fresh []) v (.obj 7) where
  unions ts x u u' a b h _ hu hu' _ ha hb := by
    have := Sample.meets_node h; simp at this; subst this
    have h1 : ∀ r, Converts Sample.W Sample.C (Means (namesIn Sample.W (fresh []) (.obj 7))) x (.fref "Node") r → x.isDict = true ∨ ∃ fs, x = .ns fs := by
      intro r h
      cases h with
      | fref hm h =>
        obtain ⟨f, h1, h2⟩ := hm
        cases h1
        simp [fresh, aget, Sample.W, Sample.cls, Sample.clsNode] at h2
        subst h2
        cases h with
        | typeddict h => cases h
        | obj _ hd => rcases hd with rfl | ⟨fs, rfl, _⟩ <;> simp [Val.isDict]
    have h2 : ∀ r, Converts Sample.W Sample.C (Means (namesIn Sample.W (fresh []) (.obj 7))) x (.prim .none) r → x = .none := by
      intro r h
      cases h with
      | exact _ h => cases x <;> first | (cases h; done) | rfl
      | cast _ _ h => exact absurd rfl h
    simp at hu hu'
    rcases hu with rfl | rfl <;> rcases hu' with rfl | rfl <;> try rfl
    · have := h1 _ ha; rw [h2 _ hb] at this; simp [Val.isDict] at this
    · have := h1 _ hb; rw [h2 _ ha] at this; simp [Val.isDict] at this
  hints e x u u' a b m m' h := by have := Sample.meets_node h; simp at this
  bools h := by rcases h with ⟨k, h⟩ | ⟨k, h⟩ <;> have := Sample.meets_node h <;> simp at this

/-- The hypotheses of `C74_exact_partial`: for all data, what a new loader returns for `Node` is the conversion and nothing else. -/
example (v : Val) (hv : KeysDistinct Sample.C v) (r : Val) :
    (∃ s', Loads Sample.W Sample.C (fresh []) v (.obj 7) r s') ↔ Converts Sample.W Sample.C (Means (namesIn Sample.W (fresh []) (.obj 7))) v (.obj 7) r := by
  refine C74_exact_partial (show Sample.C.Default from rfl) Sample.neverStops Sample.lawful Sample.notRequiredLaw rfl (.new (some []) []) (Sample.regular_node v) (Sample.unambiguous_node v) hv ?_ r
  intro hdiv
  have := C45_classes (W := Sample.W) (Config.Default.standalone (C := Sample.C) rfl) (Reachable.new (some []) []) v (.obj 7) ?_ ?_
  · rcases this with ⟨r, s', n, h⟩ | ⟨r, s', n, h⟩
    · have h2 := hdiv n; rw [h] at h2; cases h2
    · have h2 := hdiv n; rw [h] at h2; cases h2
  · intro n u hn hd
    have h1 := Sample.meets_node hn
    simp at h1
    subst h1
    obtain ⟨h2, h3 | h3⟩ := hd
    · obtain ⟨fr, h4, h5⟩ := h3; cases h4; cases h5
    · rw [Sample.node_name h3]
      exact .other (fun _ _ h => (by cases h)) (fun _ h => (by cases h)) (fun _ h => (by cases h)) (fun _ _ h => (by cases h))
        (fun _ h => (by cases h)) (fun _ h => (by cases h))
  · intro e u he _
    have := Sample.meets_node he
    simp at this

theorem Sample.optional_culprit {x : Val} {t : Ty} (h : Culprit Sample.WB Sample.CB (Known Sample.WB (fresh [])) x t) :
    ¬ (t = .union [.prim .int, .prim .none] ∨ t = .prim .int ∨ t = .prim .none) := by
  have hu : ∀ {t i}, pick Sample.WB Sample.CB t = .ok (.custom i) → ¬ (t = .union [.prim .int, .prim .none] ∨ t = .prim .int ∨ t = .prim .none) := by
    intro t i h
    rintro (rfl | rfl | rfl) <;> (revert h; exact fun h => by cases h)
  cases h with
  | tag h =>
    simp; rintro rfl
    obtain ⟨_, _, _, _, h, _⟩ := h
    obtain ⟨_, _, _, h, _⟩ := h (.prim .int) (by simp)
    cases h
  | user h => exact hu h
  | asked h => exact hu h
  | member hm h =>
    simp; rintro rfl
    simp at hm
    rcases hm with rfl | rfl
    · cases h with
      | user h => cases h
      | asked h => cases h
    · cases h with
      | user h => cases h
      | asked h => cases h
  | _ => simp

/-- Loading any data at all into `List[Optional[int]]` meets the conditions of `C74_exact_user_partial`, with the handler of the user of the sample. -/
theorem Sample.regular_optional (v : Val) :
    Regular Sample.WB Sample.CB (fresh []) v (.coll .list (.union [.prim .int, .prim .none])) where
  names n u h := by have := Sample.meets_optional h; simp at this
  dicts kt vt h := by have := Sample.meets_optional h; simp at this
  supported u h := by
    rcases h with ⟨k, h⟩ | ⟨k, h⟩ | ⟨k, h⟩ <;> have := Sample.meets_optional h <;> simp at this
    obtain ⟨_, rfl⟩ := this; exact ⟨_, .union⟩
  ints kt vt h := by have := Sample.meets_optional h; simp at this
  classes c h := by have := Sample.meets_optional h; simp at this
  converters c h := by have := Sample.meets_optional h; simp at this
  namespaces c h := by have := Sample.meets_optional h; simp at this
  unions ts x h _ hc := by
    have := Sample.meets_optional h; simp at this; subst this
    exact Sample.optional_culprit hc (by simp)

theorem Sample.unambiguous_optional (v : Val) :
    Unambiguous Sample.WB Sample.CB (fresh []) v (.coll .list (.union [.prim .int, .prim .none])) where
  unions ts x u u' a b h _ hu hu' hx ha hb := by
    have := Sample.meets_optional h; simp at this; subst this
    have h2 : ∀ {F r}, Converts Sample.WB Sample.CB F x (.prim .none) r → x = .none := by
      intro F r h
      cases h with
      | exact _ h => cases x <;> first | (cases h; done) | rfl
      | cast _ _ h => exact absurd rfl h
    have h1 : ¬ x = .none := by
      rintro rfl
      exact hx ⟨by decide, by decide⟩
    simp at hu hu'
    rcases hu with rfl | rfl <;> rcases hu' with rfl | rfl <;> try rfl
    · exact absurd (h2 hb) h1
    · exact absurd (h2 ha) h1
  hints e x u u' a b m m' h := by have := Sample.meets_optional h; simp at this
  bools h := by rcases h with ⟨k, h⟩ | ⟨k, h⟩ <;> have := Sample.meets_optional h <;> simp at this

/-- The hypotheses of `C74_exact_user_partial`: for all data whose load terminates, what `List[Optional[int]]` accepts is what has a conversion, with a
handler of the user. -/
example (v : Val) (hv : KeysDistinct Sample.CB v) (hterm : ¬ Diverges Sample.WB Sample.CB (fresh []) v (.coll .list (.union [.prim .int, .prim .none]))) (r : Val) :
    (∃ s', Loads Sample.WB Sample.CB (fresh []) v (.coll .list (.union [.prim .int, .prim .none])) r s') ↔
      Converts Sample.WB Sample.CB (Means (namesIn Sample.WB (fresh []) (.coll .list (.union [.prim .int, .prim .none])))) v
        (.coll .list (.union [.prim .int, .prim .none])) r :=
  C74_exact_user_partial Sample.mixedB Sample.calmB ⟨Sample.neverStops.1, Sample.neverStops.2, Sample.neverStops.3, Sample.neverStops.4⟩
    Sample.lawfulB (fun c => Sample.notRequiredLaw c) rfl (.new (some []) [])
    (fun u hu => by rcases Sample.meets_optional hu with rfl | rfl | rfl | rfl <;> rfl)
    (Sample.regular_optional v) (Sample.unambiguous_optional v) hv hterm r

/-- Some data is accepted and some refused. -/
example : (∃ r s', Loads Sample.WB Sample.CB (fresh []) (.list [.str "5", .none]) (.coll .list (.union [.prim .int, .prim .none])) r s') ∧
    ∃ e s', Raises Sample.WB Sample.CB (fresh []) (.list [.str "q"]) (.coll .list (.union [.prim .int, .prim .none])) e s' :=
  ⟨⟨_, _, 9, rfl⟩, _, _, 9, rfl⟩

/-- A union fails on data that a later member accepts: `load(True, Union[Tuple[int, int], int])`. -/
theorem C74_tuple_counterexample : (∃ e s', Raises Sample.W Sample.C (fresh []) (.bool true) (.union [.tuple [.prim .int, .prim .int], .prim .int]) e s') ∧
    Converts Sample.W Sample.C (Means (namesIn Sample.W (fresh []) (.union [.tuple [.prim .int, .prim .int], .prim .int]))) (.bool true)
      (.union [.tuple [.prim .int, .prim .int], .prim .int]) (.int 1) := by
  refine ⟨⟨_, _, 9, rfl⟩, .union (u := .prim .int) (by simp) ?_ (.cast rfl (by decide) (by decide) (by decide) rfl)⟩
  rintro ⟨_, h⟩; revert h; decide

/-- The loader chooses the first member that accepts an element, also when its value cannot be put into the set and the value of another member can:
`load([[1]], Set[Union[List[int], Tuple[int, ...]]])`. -/
theorem C74_hash_counterexample : (∃ e s', Raises Sample.W Sample.C (fresh []) (.list [.list [.int 1]])
      (.coll .set (.union [.coll .list (.prim .int), .coll .tuple (.prim .int)])) e s') ∧
    Converts Sample.W Sample.C (Means (namesIn Sample.W (fresh []) (.coll .set (.union [.coll .list (.prim .int), .coll .tuple (.prim .int)]))))
      (.list [.list [.int 1]]) (.coll .set (.union [.coll .list (.prim .int), .coll .tuple (.prim .int)])) (.seq .set [.tuple [.int 1]]) := by
  refine ⟨⟨_, _, 9, rfl⟩, ?_⟩
  refine .set (l := [(.list [.int 1], .tuple [.int 1])]) rfl rfl rfl ?_ (by simp; rfl)
  intro q hq
  simp at hq; subst hq
  refine .conv ?_ (.union (u := .coll .tuple (.prim .int)) (by simp) ?_ (.coll (l := [(.int 1, .int 1)]) rfl rfl rfl ?_))
  · rintro ⟨p, h, _⟩; cases h
  · rintro ⟨_, h⟩; revert h; decide
  · intro q hq; simp at hq; subst hq
    exact .keep ⟨.int, rfl, by decide, rfl⟩

/-- A Namespace cannot be loaded into a class with renamed fields (the copy that renames is made with `dict.copy`). -/
theorem C74_namespace_counterexample : (∃ e s', Raises Sample.W Sample.C (fresh []) (.ns [("x", .int 1), ("zed", .str "q")]) (.obj 0) e s') ∧
    ∃ r, Converts Sample.W Sample.C (Means (namesIn Sample.W (fresh []) (.obj 0))) (.ns [("x", .int 1), ("zed", .str "q")]) (.obj 0) r := by
  refine ⟨⟨_, _, 9, rfl⟩, .inst 0 [("x", .int 1), ("z", .str "q"), ("y", .int 5)], .obj (l := [(_, some (.int 1)), (_, some (.str "q")), (_, some (.int 5))])
    (by decide) (Or.inr ⟨_, rfl, rfl, rfl⟩) (by intro h; cases h) rfl ?_ ⟨_, rfl, rfl⟩⟩
  intro q hq
  simp at hq
  rcases hq with rfl | rfl | rfl
  · exact .loaded (fun _ => ⟨rfl, fun h => by cases h⟩) (x := .int 1) (by simp; rfl) (.declared (by intro h; cases h)) (.exact (Or.inl (by decide)) rfl)
  · exact .loaded (fun _ => ⟨rfl, fun h => by cases h⟩) (x := .str "q") (by simp; rfl) (.declared (by intro h; cases h)) (.exact (Or.inl (by decide)) rfl)
  · exact .default (by decide) rfl

end TL
