import Verif.Props.Stock
import Verif.Props.Tagged
import Verif.Props.Terminates
import Verif.Props.ErrorsData
import Verif.Props.LaxUnions
import Verif.Props.RoundTripTypes
/-!
# C05, C24, C25, C42, C43, C45, C55, C56 with handlers added by the user for other types
-/

namespace TL

variable {W : World} {C : Config}

section
variable {s : LState} (hs : UsualHistory W C s)
include hs

section
variable {ts : List Ty} (hus : ∀ u, Meets W C s (.union ts) u → C.Usual W u)
include hus

/-- **C55** With handlers of the user for other types: what a tagged union returns was produced by the member whose literal the data has under the
tag, and no other member accepts the data. -/
theorem C55_tag_decides_user (hll : W.LegalLiterals) {k : String} (ht : TaggedUnion W C.stock k ts) {v r : Val} {kvs : List (Val × Val)}
    (hdata : DictData C v kvs) (hn : (strKeys kvs).Nodup) {s' : LState} (h : Loads W C s v (.union ts) r s') :
    ∃ p ∈ ts, TagMatches W C.stock k kvs p ∧ AcceptsAs W C.stock s v p r ∧ ∀ w ∈ ts, w ≠ p → ∀ r', ¬ AcceptsAs W C.stock s v w r' :=
  C55_tag_decides Config.stock_default hll (C83_stock_state hs) ht hdata hn (((C83_stock hs hus v).1 _ _).1 h)

/-- **C55** Data whose tag is missing, or is no literal of any member, is never accepted. -/
theorem C55_unknown_tag_user {k : String} (ht : TaggedUnion W C.stock k ts) {v : Val} {kvs : List (Val × Val)} (hdata : DictData C v kvs)
    (hn : (strKeys kvs).Nodup) (hno : ∀ u ∈ ts, ∀ vs, TagField W C.stock k u vs → ∀ x, (.str k, x) ∈ kvs → ∀ l ∈ vs, pyEq l x = false) (r : Val) (s' : LState) :
    ¬ Loads W C s v (.union ts) r s' :=
  fun h => C55_unknown_tag Config.stock_default (C83_stock_state hs) ht hdata hn hno r s' (((C83_stock hs hus v).1 _ _).1 h)

/-- **C55** A tagged union is never ambiguous. -/
theorem C55_never_ambiguous_user (hll : W.LegalLiterals) {k : String} (hnd : ts.Nodup) (ht : TaggedUnion W C.stock k ts) {v : Val} {kvs : List (Val × Val)}
    (hdata : DictData C v kvs) (hn : (strKeys kvs).Nodup) {e : Exc} {s' : LState} (h : Raises W C s v (.union ts) e s') (htl : e.isTL = true) :
    e.cls = .tlValue ∧ e.msg = .unionNone (.union ts) :=
  C55_never_ambiguous Config.stock_default hll (C83_stock_state hs) hnd ht hdata hn (((C83_stock hs hus v).2.1 _ _).1 h) htl

/-- **C56** With `failonextra` and handlers of the user for other types: what a union of classes returns was produced by a member that has a field for
every key of the data. -/
theorem C56_knows_all_user (hfoe : C.failonextra = true) (hcl : ClassUnion W C.stock ts) {v r : Val} {kvs : List (Val × Val)} (hdata : DictData C v kvs)
    {s' : LState} (h : Loads W C s v (.union ts) r s') : ∃ p ∈ ts, KnowsAll W C.stock kvs p ∧ AcceptsAs W C.stock s v p r :=
  C56_knows_all Config.stock_default hfoe (C83_stock_state hs) hcl hdata (((C83_stock hs hus v).1 _ _).1 h)

/-- **C56** With `failonextra`, if one member only has a field for every key of the data, a TypedloadException is never the one of conflicting members. -/
theorem C56_unambiguous_user (hfoe : C.failonextra = true) (hnd : ts.Nodup) (hcl : ClassUnion W C.stock ts) {v : Val} {kvs : List (Val × Val)}
    (hdata : DictData C v kvs) {p : Ty} (hone : ∀ u ∈ ts, KnowsAll W C.stock kvs u → u = p) :
    (∀ r s', Loads W C s v (.union ts) r s' → AcceptsAs W C.stock s v p r) ∧
    (∀ e s', Raises W C s v (.union ts) e s' → e.isTL = true → e.cls = .tlValue ∧ e.msg = .unionNone (.union ts)) := by
  obtain ⟨a, b⟩ := C56_unambiguous Config.stock_default hfoe (C83_stock_state hs) hnd hcl hdata hone
  exact ⟨fun r s' h => a r s' (((C83_stock hs hus v).1 _ _).1 h), fun e s' h => b e s' (((C83_stock hs hus v).2.1 _ _).1 h)⟩
end

section
variable {t : Ty} (hus : ∀ u, Meets W C s t u → C.Usual W u)
include hus

/-- **C45** Types that lead back to themselves on the same data: `load` does not terminate, also with handlers of the user for other types. -/
theorem C45_circular_user (v : Val) (S : Ty → Prop) (hS : ∀ u, S u → ∃ u', Loops C.stock s v u u' ∧ S u') (ht : S t) : Diverges W C s v t :=
  (C83_stock hs hus v).2.2.2 (C45_circular Config.stock_default (C83_stock_state hs) v S hS ht)

omit hs hus in
/-- The types met by a loader with handlers for other types are those that the loader with the default list of handlers meets. -/
theorem Meets.of_stock {u : Ty} (h : Meets W C.stock s t u) : Meets W C s t u := by
  induction h with
  | self => exact .self
  | known h => exact .known h
  | coll _ ih => exact .coll ih
  | tuple _ h ih => exact .tuple ih h
  | dictKey _ ih => exact .dictKey ih
  | dictVal _ ih => exact .dictVal ih
  | union _ h ih => exact .union ih h
  | newtype _ ih => exact .newtype ih
  | enum _ h ih => exact .enum ih h
  | field _ h1 h2 ih => exact .field ih h1 h2
  | custom hi => exact absurd hi (not_installed Config.stock_default _)

/-- **C05** for types all of whose parts are sturdy, with handlers of the user for other types: every failure is a TypedloadException. -/
theorem C05_sturdy_user (hl : W.Lawful) (hfe : C.failonextra = false) {v : Val} (hst : ∀ u, Meets W C s t u → Sturdy W C.stock (Known W s) u)
    {e : Exc} {s' : LState} (h : Raises W C s v t e s') : e.isTL = true :=
  C05_sturdy Config.stock_default hl hfe (C83_stock_state hs) (fun u hu => hst u (Meets.of_stock hu)) (((C83_stock hs hus v).2.1 _ _).1 h)

/-- **C05** for what `json.loads` returns, with any value of `failonextra` and handlers of the user for other types. -/
theorem C05_json_user (hl : W.Lawful) {v : Val} (hj : Json v)
    (hst : ∀ u, Meets W C s t u → Sturdy W C.stock (Known W s) u)
    {e : Exc} {s' : LState} (h : Raises W C s v t e s') : e.isTL = true :=
  C05_json Config.stock_default hl (C83_stock_state hs) hj (fun u hu => .inl (hst u (Meets.of_stock hu))) (((C83_stock hs hus v).2.1 _ _).1 h)

/-- **C24** (partial), for types whose unions are all Optional, with handlers of the user for other types. -/
theorem C24_optional_user_partial {s' : LState} (hs' : UsualHistory W { C with basiccast := true } s')
    (hus' : ∀ u, Meets W { C with basiccast := true } s' t u → Config.Usual { C with basiccast := true } W u) (h1 : W.NotRequiredLaw) (h2 : W.SteadyTags)
    (hbt : .none ∈ C.basictypes) {v : Val} (hn : SameNames W (namesIn W s t) (namesIn W s' t) t) (hst : Steady W C.stock (namesIn W s t) v t)
    (ho : OptionalOnly W (namesIn W s t) t) {r : Val} {s1 : LState} (h : Loads W C s v t r s1) :
    ∃ s2, Loads W { C with basiccast := true } s' v t r s2 := by
  obtain ⟨a1, _, _⟩ := C83_stock hs hus v
  obtain ⟨b1, _, _⟩ := C83_stock hs' hus' v
  simp only [b1]
  exact C24_optional_partial Config.stock_default h1 h2 hbt (C83_stock_state hs) (C83_stock_state hs') hn hst ho ((a1 _ _).1 h)

/-- **C25** (partial), for types whose unions are all Optional, with handlers of the user for other types. -/
theorem C25_optional_user_partial {s' : LState} (hs' : UsualHistory W { C with failonextra := false } s')
    (hus' : ∀ u, Meets W { C with failonextra := false } s' t u → Config.Usual { C with failonextra := false } W u) (h1 : W.NotRequiredLaw) (h2 : W.SteadyTags)
    (hbt : .none ∈ C.basictypes) {v : Val} (hn : SameNames W (namesIn W s t) (namesIn W s' t) t) (hst : Steady W C.stock (namesIn W s t) v t)
    (ho : OptionalOnly W (namesIn W s t) t) {r : Val} {s1 : LState} (h : Loads W C s v t r s1) :
    ∃ s2, Loads W { C with failonextra := false } s' v t r s2 := by
  obtain ⟨a1, _, _⟩ := C83_stock hs hus v
  obtain ⟨b1, _, _⟩ := C83_stock hs' hus' v
  simp only [b1]
  exact C25_optional_partial Config.stock_default h1 h2 hbt (C83_stock_state hs) (C83_stock_state hs') hn hst ho ((a1 _ _).1 h)

variable {D : DConfig} (hdd : D.Default) (hu : C.uniondebugconflict = false) (hm : D.mangleKey = C.mangleKey)
  (h1 : W.NotRequiredLaw) (hnl : W.SteadyTags) (hll : W.LegalLiterals) (hdf : W.DistinctFields) {sd : DState} (hsd : DReachable W D sd) {Γ : Env}
include hdd hu hm h1 hnl hll hdf hsd

/-- **C43** (partial) Every value of the type can be dumped and the data loaded back, with handlers of the user for other types. -/
theorem C43_values_user_partial {v : Val} (hv : Legal W v)
    (h : Fits W C.stock D Γ v t) (hn : SameNames W Γ (namesIn W s t) t) (hst : SteadyTypes W C.stock Γ t)
    (hb : (∀ a d sd', Dumps W D sd v a d sd' → ∀ b, ¬ Within d (.bool b)) ∨ ∀ k w, Uses W Γ t (.dict k w) → k ≠ .prim .int ∧ w ≠ .prim .int) :
    ∃ d r, (∃ sd', Dumps W D sd v .any d sd') ∧ (∃ sd', Dumps W D sd v t d sd') ∧ (∃ s', Loads W C s d t r s') ∧ Restored W v r := by
  obtain ⟨d, r, a, b, ⟨s', c⟩, e⟩ := C43_values_partial Config.stock_default hdd hu hm h1 hnl hll hdf hsd (C83_stock_state hs) hv h hn hst hb
  exact ⟨d, r, a, b, ⟨s', ((C83_stock hs hus d).1 _ _).2 c⟩, e⟩

/-- **C42** (partial) Without hidedefault the result is the value. -/
theorem C42_values_user_partial (h0 : D.hidedefault = false) {v : Val} (hv : Legal W v)
    (h : Fits W C.stock D Γ v t) (hn : SameNames W Γ (namesIn W s t) t) (hst : SteadyTypes W C.stock Γ t)
    (hb : (∀ a d sd', Dumps W D sd v a d sd' → ∀ b, ¬ Within d (.bool b)) ∨ ∀ k w, Uses W Γ t (.dict k w) → k ≠ .prim .int ∧ w ≠ .prim .int) :
    ∃ d, (∃ sd', Dumps W D sd v .any d sd') ∧ (∃ sd', Dumps W D sd v t d sd') ∧ ∃ s', Loads W C s d t v s' := by
  obtain ⟨d, a, b, s', c⟩ := C42_values_partial Config.stock_default hdd hu hm h0 h1 hnl hll hdf hsd (C83_stock_state hs) hv h hn hst hb
  exact ⟨d, a, b, s', ((C83_stock hs hus d).1 _ _).2 c⟩
end
end

/-! ## The hypotheses are met -/

/-- The types met while loading into `Union[L1, L2]` by a loader with handlers of the user for paths and trees. -/
theorem Sample.meets_tagged {C : Config} {u : Ty} (h : Meets Sample.WB C (fresh []) (.union [.obj 5, .obj 6]) u) :
    u ∈ [.union [.obj 5, .obj 6], .obj 5, .obj 6, .lit [.str "one"], .lit [.str "two"], .prim .int] := by
  induction h with
  | known h => obtain ⟨fr, h1, h2⟩ := h; simp [fresh] at h1; subst h1; cases h2
  | @custom i x u y w hi _ ha ih =>
    have ha : (Sample.callback x u).Asks y w := ha
    simp at ih
    rcases ih with rfl | rfl | rfl | rfl | rfl | rfl <;> cases ha
  | union _ hu ih => simp at ih; subst ih; simp at hu; rcases hu with rfl | rfl <;> simp
  | field _ hf ht ih =>
    simp at ih
    rcases ih with rfl | rfl <;> simp [Sample.WB, Sample.W, Sample.cls, Sample.clsL1, Sample.clsL2] at hf <;> rcases hf with rfl | rfl <;> cases ht <;> simp_all
  | _ => simp_all

theorem Sample.usual_tagged (u : Ty) (h : Meets Sample.WB Sample.CB (fresh []) (.union [.obj 5, .obj 6]) u) : Sample.CB.Usual Sample.WB u := by
  have := Sample.meets_tagged h
  simp at this
  rcases this with rfl | rfl | rfl | rfl | rfl | rfl <;> rfl

theorem Sample.taggedUnionB : TaggedUnion Sample.WB Sample.CB.stock "tag" [.obj 5, .obj 6] := ⟨Sample.taggedUnion.tag, Sample.taggedUnion.disjoint⟩

/-- A loader with handlers of the user, and a tagged union: what is returned is of the class that the tag names; the union is never ambiguous. -/
example (r : Val) (e : Exc) (s' : LState) (x : Val) :
    (Loads Sample.WB Sample.CB (fresh []) (.dict [(.str "tag", .str "two"), (.str "p", x)]) (.union [.obj 5, .obj 6]) r s' →
      ∃ p ∈ [Ty.obj 5, .obj 6], TagMatches Sample.WB Sample.CB.stock "tag" [(.str "tag", .str "two"), (.str "p", x)] p) ∧
    (Raises Sample.WB Sample.CB (fresh []) (.dict [(.str "tag", .str "two"), (.str "p", x)]) (.union [.obj 5, .obj 6]) e s' → e.isTL = true → e.cls = .tlValue) ∧
    ∃ r s', Loads Sample.WB Sample.CB (fresh []) (.dict [(.str "tag", .str "two"), (.str "p", .int 3)]) (.union [.obj 5, .obj 6]) r s' := by
  refine ⟨fun h => ?_, fun h htl => ?_, _, _, 9, rfl⟩
  · obtain ⟨p, hp, hm, _⟩ := C55_tag_decides_user (.new (some []) []) Sample.usual_tagged Sample.legalLiterals Sample.taggedUnionB (.inl rfl) (by simp [strKeys, strKey]) h
    exact ⟨p, hp, hm⟩
  · exact (C55_never_ambiguous_user (.new (some []) []) Sample.usual_tagged Sample.legalLiterals (by simp) Sample.taggedUnionB (.inl rfl) (by simp [strKeys, strKey]) h htl).1

/-- Lists of integers, with a loader that has handlers of the user: every failure is a TypedloadException, casts accept what is accepted without them,
and lists of any length come back. -/
example (v r : Val) (e : Exc) (s1 : LState) (l : List Int) :
    (Raises Sample.WB Sample.CB (fresh []) v (.coll .list (.prim .int)) e s1 → e.isTL = true) ∧
    (Loads Sample.WB { Sample.CB with basiccast := false } (fresh []) v (.coll .list (.prim .int)) r s1 →
      ∃ s2, Loads Sample.WB { Sample.CB with basiccast := true } (fresh []) v (.coll .list (.prim .int)) r s2) ∧
    ∃ d s', (∃ sd', Dumps Sample.WB { hidedefault := false } {} (.list (l.map .int)) .any d sd') ∧
      Loads Sample.WB Sample.CB (fresh []) d (.coll .list (.prim .int)) (.list (l.map .int)) s' := by
  have hst : ∀ u, Meets Sample.WB Sample.CB (fresh []) (.coll .list (.prim .int)) u → Sturdy Sample.WB Sample.CB.stock (Known Sample.WB (fresh [])) u := by
    intro u hu
    rcases Sample.meets_ints hu with rfl | rfl <;> trivial
  refine ⟨fun h => C05_sturdy_user (.new (some []) []) (Sample.usual_ints true false) Sample.lawfulB rfl hst h, fun h => ?_, ?_⟩
  · exact C24_optional_user_partial (C := { Sample.CB with basiccast := false }) (.new (some []) []) (Sample.usual_ints _ _) (.new (some []) []) (Sample.usual_ints _ _)
      Sample.wb_notRequiredLaw Sample.wb_steadyTags (by decide) ⟨Iff.rfl, fun _ _ _ _ n hu => absurd (Sample.uses_ints hu) (by simp)⟩ (Sample.steady_ints _ _)
      ⟨fun _ hu => absurd (Sample.uses_ints hu) (by simp), fun _ hu => absurd (Sample.uses_ints hu) (by simp)⟩ h
  · have hv : Legal Sample.WB (.list (l.map .int)) := by
      refine .of_parts (fun h => (by cases h)) (fun x hx => ?_)
      cases hx with
      | elem h =>
        obtain ⟨i, _, rfl⟩ := List.mem_map.1 h
        exact .of_parts trivial (fun x hx => by cases hx)
    have hf : Fits Sample.WB Sample.CB.stock { hidedefault := false } (some fun _ => none) (.list (l.map .int)) (.coll .list (.prim .int)) := by
      refine .coll rfl (h := .basicload) rfl (fun x hx => ?_)
      obtain ⟨i, _, rfl⟩ := List.mem_map.1 hx
      exact .leaf (.basic rfl (by decide) (Or.inl (by decide)))
    obtain ⟨d, a, _, s', b⟩ := C42_values_user_partial (C := Sample.CB) (D := { hidedefault := false }) (.new (some []) []) (Sample.usual_ints true false) rfl rfl rfl
      Sample.wb_notRequiredLaw Sample.wb_steadyTags Sample.legalLiterals Sample.distinctFields .new rfl hv hf
      ⟨by simp [namesIn], fun _ _ _ _ n hu => absurd (Sample.uses_ints hu) (by simp)⟩
      ⟨fun _ _ _ hu => absurd (Sample.uses_ints hu) (by simp), fun _ _ hu => absurd (Sample.uses_ints hu) (by simp),
        fun _ _ hu => absurd (Sample.uses_ints hu) (by simp)⟩ (Or.inr fun _ _ hu => absurd (Sample.uses_ints hu) (by simp))
    exact ⟨d, s', a, b⟩

/-- `A = Union['A', int]` runs forever, also on a loader with handlers of the user for other types. -/
example (x : String) : Diverges Sample.WB Sample.CB { frefs := some [("A", .union [.fref "A", .prim .int])] } (.str x) (.fref "A") := by
  have hm : ∀ u, Meets Sample.WB Sample.CB { frefs := some [("A", .union [.fref "A", .prim .int])] } (.fref "A") u →
      u = .fref "A" ∨ u = .union [.fref "A", .prim .int] ∨ u = .prim .int := by
    intro u h
    induction h with
    | self => simp
    | known hb =>
      obtain ⟨fr, h1, h2⟩ := hb; cases h1
      simp only [aget] at h2
      split at h2
      · cases h2; simp
      · cases h2
    | @custom i x u y w hi _ ha ih =>
      have ha : (Sample.callback x u).Asks y w := ha
      rcases ih with rfl | rfl | rfl <;> cases ha
    | union _ hu ih => simp at ih; subst ih; simp at hu; rcases hu with rfl | rfl <;> simp
    | _ => simp_all
  refine C45_circular_user (.new _ []) (fun u hu => ?_) _ (fun u => u = .fref "A" ∨ u = .union [.fref "A", .prim .int]) ?_ (Or.inl rfl)
  · rcases hm u hu with rfl | rfl | rfl <;> rfl
  · rintro u (rfl | rfl)
    · exact ⟨_, .fref ⟨_, rfl, rfl⟩, Or.inr rfl⟩
    · exact ⟨.fref "A", .member (rest := [.prim .int]) rfl (by simp [typeOf]) rfl, Or.inl rfl⟩

end TL
