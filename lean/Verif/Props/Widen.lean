import Verif.Spec.Widen
import Verif.Props.Reorder
/-!
# C82: unions with more members
-/

namespace TL

variable {W : World} {C : Config} {cls : Nat → ClassDef}

/-- `Widened`, except that the type itself has not become the member of a union. -/
inductive WidenedCore (C : Config) : Ty → Ty → Prop
  | refl (t : Ty) : WidenedCore C t t
  | coll {k t t'} : Widened C t t' → WidenedCore C (.coll k t) (.coll k t')
  | tuple {l : List (Ty × Ty)} : (∀ q ∈ l, Widened C q.1 q.2) → WidenedCore C (.tuple (l.map (·.1))) (.tuple (l.map (·.2)))
  | dict {k k' t t'} : Widened C k k' → Widened C t t' → WidenedCore C (.dict k t) (.dict k' t')
  | newtype {n t t'} : Widened C t t' → WidenedCore C (.newtype n t) (.newtype n t')
  | lit {vs vs'} : (∀ x ∈ vs, x ∈ vs') → WidenedCore C (.lit vs) (.lit vs')
  | union {ts ts' : List Ty} {l : List (Ty × Ty)} : (∀ u, u ∈ ts ↔ u ∈ l.map (·.1)) → (∀ q ∈ l, q.2 ∈ ts') → (∀ q ∈ l, Widened C q.1 q.2) →
      (∀ u ∈ ts', C.isBasic u = true → u ∈ ts) → WidenedCore C (.union ts) (.union ts')

theorem WidenedCore.coll_left {k : SeqKind} {t u : Ty} (h : WidenedCore C (.coll k u) t) : ∃ u', t = .coll k u' ∧ Widened C u u' := by
  cases h with
  | refl => exact ⟨_, rfl, .refl _⟩
  | coll h => exact ⟨_, rfl, h⟩
theorem WidenedCore.dict_left {t k u : Ty} (h : WidenedCore C (.dict k u) t) : ∃ k' u', t = .dict k' u' ∧ Widened C k k' ∧ Widened C u u' := by
  cases h with
  | refl => exact ⟨_, _, rfl, .refl _, .refl _⟩
  | dict h1 h2 => exact ⟨_, _, rfl, h1, h2⟩
theorem WidenedCore.newtype_left {n : String} {t u : Ty} (h : WidenedCore C (.newtype n u) t) : ∃ u', t = .newtype n u' ∧ Widened C u u' := by
  cases h with
  | refl => exact ⟨_, rfl, .refl _⟩
  | newtype h => exact ⟨_, rfl, h⟩
theorem WidenedCore.tuple_left {t : Ty} {us : List Ty} (h : WidenedCore C (.tuple us) t) :
    ∃ l : List (Ty × Ty), t = .tuple (l.map (·.2)) ∧ us = l.map (·.1) ∧ ∀ q ∈ l, Widened C q.1 q.2 := by
  cases h with
  | refl => exact ⟨us.map (fun u => (u, u)), by simp [Function.comp_def], by simp [Function.comp_def], by simpa using fun a _ => .refl a⟩
  | tuple h => exact ⟨_, rfl, rfl, h⟩
theorem WidenedCore.union_left {t : Ty} {us : List Ty} (h : WidenedCore C (.union us) t) :
    ∃ (ts : List Ty) (l : List (Ty × Ty)), t = .union ts ∧ (∀ u, u ∈ us ↔ u ∈ l.map (·.1)) ∧ (∀ q ∈ l, q.2 ∈ ts) ∧ (∀ q ∈ l, Widened C q.1 q.2) ∧
      ∀ u ∈ ts, C.isBasic u = true → u ∈ us := by
  cases h with
  | refl => exact ⟨us, us.map (fun u => (u, u)), rfl, by simp, by simp, by simpa using fun a _ => .refl a, fun u h _ => h⟩
  | union h1 h2 h3 h4 => exact ⟨_, _, rfl, h1, h2, h3, h4⟩

theorem conv_lift {F : String → Ty → Prop} {v : Val} {t : Ty} {r : Val} (hcore : ∀ t', WidenedCore C t t' → Converts W C F v t' r) :
    ∀ t', Widened C t t' → Converts W C F v t' r := by
  intro t' h
  cases h with
  | refl => exact hcore _ (.refl _)
  | coll h => exact hcore _ (.coll h)
  | tuple h => exact hcore _ (.tuple h)
  | dict h1 h2 => exact hcore _ (.dict h1 h2)
  | newtype h => exact hcore _ (.newtype h)
  | lit h => exact hcore _ (.lit h)
  | union h1 h2 h3 h4 => exact hcore _ (.union h1 h2 h3 h4)
  | into h1 h2 h3 => exact .union h2 (fun hx => by have := h3 _ hx.2; rw [hx.1] at this; cases this) (hcore _ (.refl _))

theorem Widened.basicInstance {t t' : Ty} (h : Widened C t t') {x : Val} : BasicInstance C t x ↔ BasicInstance C t' x := by
  cases h with
  | refl => rfl
  | into h1 h2 h3 =>
    constructor
    · rintro ⟨p, rfl, h, _⟩; simp [Config.isBasic, h] at h1
    · rintro ⟨p, h, _⟩; cases h
  | _ => constructor <;> (rintro ⟨p, h, _⟩; cases h)

theorem World.Widens.hash (h : W.Widens C cls) : (W.retype cls).hash = W.hash := by
  have : (W.retype cls).hc = W.hc := funext fun c => h.hashable c
  funext v
  unfold World.hash; rw [this]

theorem WiderField.name {f f' : Field} (h : WiderField C f f') : f'.name = f.name := by obtain ⟨_, rfl, _⟩ := h; rfl
theorem WiderField.ext {f f' : Field} (h : WiderField C f f') (k : ObjKind) : extName C k f' = extName C k f := by obtain ⟨_, rfl, _⟩ := h; rfl
theorem WiderField.fieldTy {f f' : Field} (h : WiderField C f f') {k : ObjKind} {t : Ty} (ht : FieldTy k f t) : ∃ t', FieldTy k f' t' ∧ Widened C t t' := by
  obtain ⟨u, rfl, hr⟩ := h
  cases ht with
  | declared h => exact ⟨_, .declared h, hr⟩
  | converter cv h1 h2 h3 h4 => exact ⟨_, .converter cv h1 h2 h3 h4, .refl _⟩
  | untyped cv h1 h2 h3 h4 => exact ⟨_, .untyped cv h1 h2 h3 h4, .refl _⟩
  | manyHints cv h1 h2 h3 => exact ⟨_, .manyHints cv h1 h2 h3, .refl _⟩

/-- What data becomes stays the same when annotations get wider. -/
theorem Converts.widen (hw : W.Widens C cls) {F F' : String → Ty → Prop} (hF : ∀ n u, F n u → ∃ u', F' n u' ∧ Widened C u u') {v : Val} {t : Ty} {r : Val}
    (h : Converts W C F v t r) : ∀ t', Widened C t t' → Converts (W.retype cls) C F' v t' r := by
  have hh := hw.hash
  refine Converts.rec (W := W) (C := C) (F := F)
    (motive_1 := fun v t r _ => ∀ t', Widened C t t' → Converts (W.retype cls) C F' v t' r)
    (motive_2 := fun v t r _ => ∀ t', Widened C t t' → ConvertsItem (W.retype cls) C F' v t' r)
    (motive_3 := fun v t r _ => ∀ t', Widened C t t' → ConvertsElem (W.retype cls) C F' v t' r)
    (motive_4 := fun c kvs f o _ => ∀ f', WiderField C f f' → FieldConv (W.retype cls) C F' c kvs f' o)
    ?_ ?_ ?_ ?_ ?_ ?_ ?_ ?_ ?_ ?_ ?_ ?_ ?_ ?_ ?_ ?_ ?_ ?_ ?_ ?_ ?_ ?_ ?_ ?_ ?_ ?_ h
  · intro p v h1 h2; refine conv_lift (fun t' hr => ?_); cases hr; exact .exact h1 h2
  · intro p v r h1 h2 h3 h4 h5; refine conv_lift (fun t' hr => ?_); cases hr; exact .cast h1 h2 h3 h4 h5
  · intro v; refine conv_lift (fun t' hr => ?_); cases hr; exact .any
  · intro vs l v h1 h2; refine conv_lift (fun t' hr => ?_); cases hr with
    | refl => exact .lit h1 h2
    | lit h => exact .lit (h _ h1) h2
  · intro e v m h; refine conv_lift (fun t' hr => ?_); cases hr; exact .enum h
  · intro e v u x m h1 h2 _ h3 ih; refine conv_lift (fun t' hr => ?_); cases hr; exact .hint h1 h2 (ih _ (.refl _)) h3
  · intro k v r h; refine conv_lift (fun t' hr => ?_); cases hr; exact .dt h
  · intro v r h; refine conv_lift (fun t' hr => ?_); cases hr; exact .timedelta h
  · intro a v r h; refine conv_lift (fun t' hr => ?_); cases hr; exact .pattern h
  · intro c v r h1 h2; refine conv_lift (fun t' hr => ?_); cases hr; exact .strcons h1 h2
  · intro k t v l h1 h2 h3 _ ih; refine conv_lift (fun t' hr => ?_)
    obtain ⟨u, rfl, hu⟩ := hr.coll_left
    exact .coll h1 h2 h3 (fun q hq => ih q hq _ hu)
  · intro k t v l h1 h2 h3 _ h4 ih; refine conv_lift (fun t' hr => ?_)
    obtain ⟨u, rfl, hu⟩ := hr.coll_left
    exact .set h1 h2 h3 (fun q hq => ih q hq _ hu) (by rw [hh]; exact h4)
  · intro v l rest h1 h2 h3 _ ih; refine conv_lift (fun t' hr => ?_)
    obtain ⟨m, rfl, hm, hq⟩ := hr.tuple_left
    -- `m` pairs the new component types with the old ones
    have key : ∀ (l : List (Val × Ty × Val)) (m : List (Ty × Ty)), l.map (·.2.1) = m.map (·.1) → (∀ q ∈ m, Widened C q.1 q.2) →
        (∀ q ∈ l, ∀ t', Widened C q.2.1 t' → Converts (W.retype cls) C F' q.1 t' q.2.2) →
        ∃ l' : List (Val × Ty × Val), l'.map (·.1) = l.map (·.1) ∧ l'.map (·.2.1) = m.map (·.2) ∧ l'.map (·.2.2) = l.map (·.2.2) ∧
          ∀ q ∈ l', Converts (W.retype cls) C F' q.1 q.2.1 q.2.2 := by
      intro l
      induction l with
      | nil => intro m hm _ _; simp at hm; subst hm; exact ⟨[], by simp⟩
      | cons a l il =>
        intro m hm hq hi
        cases m with
        | nil => simp at hm
        | cons b m =>
          simp only [List.map_cons, List.cons.injEq] at hm
          obtain ⟨l', e1, e2, e3, e4⟩ := il m hm.2 (fun q h => hq q (by simp [h])) (fun q h => hi q (by simp [h]))
          refine ⟨(a.1, b.2, a.2.2) :: l', by simp [e1], by simp [e2], by simp [e3], ?_⟩
          intro q hq'
          simp only [List.mem_cons] at hq'
          rcases hq' with rfl | hq'
          · refine hi a (by simp) _ ?_
            rw [hm.1]; exact hq b (by simp)
          · exact e4 q hq'
    obtain ⟨l', e1, e2, e3, e4⟩ := key l m hm hq ih
    rw [← e2, ← e3]
    exact .tuple (rest := rest) h1 (by rw [e1]; exact h2) h3 e4
  · intro kt vt v l h1 _ _ h2 ih1 ih2; refine conv_lift (fun t' hr => ?_)
    obtain ⟨k', u', rfl, hk, hu⟩ := hr.dict_left
    exact .dict h1 (fun q hq => ih1 q hq _ hk) (fun q hq => ih2 q hq _ hu) (by rw [hh]; exact h2)
  · intro ts u v r h1 h2 _ ih; refine conv_lift (fun t' hr => ?_)
    obtain ⟨ts', l, rfl, e1, e2, e3, e4⟩ := hr.union_left
    by_cases hx : ExactBasic C v ts'
    · have := h2 ⟨hx.1, e4 _ hx.2 hx.1⟩
      subst this
      exact .union hx.2 (fun _ => rfl) (ih _ (.refl _))
    · rw [e1] at h1
      obtain ⟨q, hq, rfl⟩ := List.mem_map.1 h1
      exact .union (e2 q hq) (fun h => absurd h hx) (ih _ (e3 q hq))
  · intro n u v r h1 _ ih; refine conv_lift (fun t' hr => ?_)
    cases hr
    obtain ⟨u', h2, h3⟩ := hF n u h1
    exact .fref h2 (ih _ h3)
  · intro n u v r _ ih; refine conv_lift (fun t' hr => ?_)
    obtain ⟨u', rfl, hu⟩ := hr.newtype_left
    exact .newtype (ih _ hu)
  · intro c v kvs l h1 h2 h3 h4 h5 _ h6 ih; refine conv_lift (fun t' hr => ?_)
    cases hr
    have hz := hw.fields c
    have hk : ((W.retype cls).cls c).kind = (W.cls c).kind := hw.kind c
    have hn : ((W.retype cls).cls c).fields.map (·.name) = (W.cls c).fields.map (·.name) := hz.map_eq (fun _ _ h => h.name)
    obtain ⟨m, rfl, hm⟩ := choose_list (R := fun (q : Field × Val × Val) (f' : Field) => f' ∈ (cls c).fields ∧ WiderField C q.1 f') (l := l) (fun q hq => by
      obtain ⟨f', h7, h8⟩ := hz.mem_left (h5 q hq)
      exact ⟨f', h7, h8⟩)
    have e : ∀ {γ : Type} (g : String → Val → Val → γ), (m.map (fun p => (p.2, p.1.2))).map (fun q : Field × Val × Val => g q.1.name q.2.1 q.2.2) =
        (m.map (·.1)).map (fun q => g q.1.name q.2.1 q.2.2) := by
      intro γ g
      simp only [List.map_map]
      apply List.map_congr_left
      intro p hp
      simp [(hm p hp).2.name]
    have e' := e (fun n _ y => ((Val.str n), y))
    rw [← e']
    refine .typeddict (by rw [hk]; exact h1) h2 ?_ ?_ ?_ ?_ ?_ (kvs := kvs)
    · intro hf p hp
      obtain ⟨f, hf1, hf2⟩ := h3 hf p hp
      obtain ⟨f', h7, h8⟩ := hz.mem_left hf1
      exact ⟨f', h7, by rw [hk, h8.ext]; exact hf2⟩
    · rw [hn, h4]; exact (e (fun n x _ => ((Val.str n), x))).symm
    · intro q hq
      obtain ⟨p, hp, rfl⟩ := List.mem_map.1 hq
      exact (hm p hp).1
    · intro q hq
      obtain ⟨p, hp, rfl⟩ := List.mem_map.1 hq
      obtain ⟨u, h7, h8⟩ := (hm p hp).2
      refine ih p.1 (List.mem_map_of_mem hp) _ ?_
      dsimp only
      rw [h7]; exact h8
    · intro f' hf' h7 h8
      obtain ⟨f, hf, hs⟩ := hz.mem_right hf'
      have hname := hs.name
      obtain ⟨u, rfl, _⟩ := hs
      have := h6 f hf h7 h8
      rw [hname, show (m.map (fun p => (p.2, p.1.2))).map (fun q : Field × Val × Val => q.1.name) = _ from e (fun n _ _ => n)]
      exact this
  · intro c v kvs r l h1 h2 h3 h4 _ h5 ih; refine conv_lift (fun t' hr => ?_)
    cases hr
    have hz := hw.fields c
    have hk : ((W.retype cls).cls c).kind = (W.cls c).kind := hw.kind c
    rw [h4] at hz
    have key : ∀ (l : List (Field × Option Val)) (fs : List Field), Zip2 (WiderField C) (l.map (·.1)) fs →
        (∀ q ∈ l, ∀ f', WiderField C q.1 f' → FieldConv (W.retype cls) C F' c kvs f' q.2) →
        ∃ l' : List (Field × Option Val), fs = l'.map (·.1) ∧ (∀ q ∈ l', FieldConv (W.retype cls) C F' c kvs q.1 q.2) ∧
          l'.filterMap (fun q => q.2.map (fun y => (q.1.name, y))) = l.filterMap (fun q => q.2.map (fun y => (q.1.name, y))) := by
      intro l
      induction l with
      | nil => intro fs hz _; cases hz; exact ⟨[], by simp⟩
      | cons a l il =>
        intro fs hz hi
        cases hz with
        | @cons _ f' _ fs hs hz =>
          obtain ⟨l', e1, e2, e3⟩ := il fs hz (fun q hq => hi q (by simp [hq]))
          refine ⟨(f', a.2) :: l', by simp [e1], ?_, ?_⟩
          · intro q hq
            simp only [List.mem_cons] at hq
            rcases hq with rfl | hq
            · exact hi a (by simp) _ hs
            · exact e2 q hq
          · simp only [List.filterMap_cons, hs.name, e3]
    obtain ⟨l', e1, e2, e3⟩ := key l _ hz ih
    refine .obj (kvs := kvs) (l := l') (by rw [hk]; exact h1) h2 ?_ e1 e2 ?_
    · intro hf p hp
      obtain ⟨f, hf1, hf2⟩ := h3 hf p hp
      rw [h4] at hf1
      obtain ⟨f', h7, h8⟩ := hz.mem_left hf1
      exact ⟨f', h7, by rw [hk, h8.ext]; exact hf2⟩
    · rw [e3]
      unfold Built
      rw [hk]
      exact h5
  · intro v t r h1 _ ih t' hr; exact .conv (by rw [← hr.basicInstance]; exact h1) (ih _ hr)
  · intro t v h t' hr; exact .keep (hr.basicInstance.1 h)
  · intro v t r _ ih t' hr; exact .conv (ih _ hr)
  · intro p v h1 h2 t' hr; cases hr with
    | refl => exact .keep h1 h2
    | into h => simp [Config.isBasic, h1] at h
  · intro c kvs f x t y h1 h2 h3 _ ih f' hf
    obtain ⟨t', h4, h5⟩ := hf.fieldTy h3
    have hk : ((W.retype cls).cls c).kind = (W.cls c).kind := hw.kind c
    refine .loaded (t := t') ?_ ?_ ?_ (ih _ h5)
    · rw [hk]; obtain ⟨_, rfl, _⟩ := hf; exact h1
    · rw [hk, hf.ext]; exact h2
    · rw [hk]; exact h4
  · intro c kvs f d h1 h2 f' hf
    have hk : ((W.retype cls).cls c).kind = (W.cls c).kind := hw.kind c
    exact .default (by rw [hk, hf.ext]; exact h1) (by obtain ⟨_, rfl, _⟩ := hf; exact h2)
  · intro c kvs f h1 h2 h3 h4 f' hf
    have hk : ((W.retype cls).cls c).kind = (W.cls c).kind := hw.kind c
    exact .unset (by rw [hk]; exact h1) (by rw [hk, hf.ext]; exact h2) (by obtain ⟨_, rfl, _⟩ := hf; exact h3) (by obtain ⟨_, rfl, _⟩ := hf; exact h4)

theorem NotRequiredLaw.widens (hw : W.Widens C cls) (h : W.NotRequiredLaw) : (W.retype cls).NotRequiredLaw := by
  intro c f' hf' h1
  obtain ⟨f, h2, u, rfl, _⟩ := (hw.fields c).mem_right hf'
  exact h c f h2 h1

section
variable (hm : C.Mixed) (hcc : CalmConditions W C) (hcc' : CalmConditions (W.retype cls) C) (hW : W.NeverStops) (hl : W.Lawful) (hlaw : W.NotRequiredLaw)
  (hdbg : C.uniondebugconflict = false) (hw : W.Widens C cls)
  {s : LState} (hs : Reachable W C s) (hs' : Reachable (W.retype cls) C s) {v : Val} {t t' : Ty} (hwt : Widened C t t')
  (hnames : ∀ n u, Means (namesIn W s t) n u → ∃ u', Means (namesIn (W.retype cls) s t') n u' ∧ Widened C u u') (hv : KeysDistinct C v)
  (hus : ∀ u, Meets W C s t u → C.Usual W u) (hus' : ∀ u, Meets (W.retype cls) C s t' u → C.Usual (W.retype cls) u)
include hm hcc hcc' hW hl hlaw hdbg hw hs hs' hwt hnames hv hus hus'

/-- **C82** (partial), with handlers of the user for other types. -/
theorem C82_accepts_user_partial (hc : Consistent W C s v t) (hc' : Consistent (W.retype cls) C s v t') {r : Val} {s1 s2 : LState} (h : Loads W C s v t r s1) (e : Exc) :
    ¬ Raises (W.retype cls) C s v t' e s2 := fun he =>
  C74_refused_user_partial (W := W.retype cls) hm hcc' ⟨hW.1, hW.2, hW.3, hW.4⟩ ⟨hl.1, hl.2, hl.3, hl.4⟩ (NotRequiredLaw.widens hw hlaw) hdbg hs' hus' hc' hv he r
    ((loads_converts_user hm hcc hW hl hlaw hdbg hs hus hc hv h).widen hw hnames _ hwt)

/-- **C82** (partial), with handlers of the user for other types. -/
theorem C82_result_user_partial (hc : Consistent W C s v t) (hreg : Regular (W.retype cls) C s v t') (hu : Unambiguous (W.retype cls) C s v t') {r1 r2 : Val}
    {s1 s2 : LState} (h1 : Loads W C s v t r1 s1) (h2 : Loads (W.retype cls) C s v t' r2 s2) : r1 = r2 := by
  have hc' := hu.consistent hv hreg
  have h3 := (loads_converts_user hm hcc hW hl hlaw hdbg hs hus hc hv h1).widen hw hnames _ hwt
  have h4 := loads_converts_user (W := W.retype cls) hm hcc' ⟨hW.1, hW.2, hW.3, hW.4⟩ ⟨hl.1, hl.2, hl.3, hl.4⟩ (NotRequiredLaw.widens hw hlaw) hdbg hs' hus' hc' hv h2
  exact h3.unique hv hreg.classes hu .self .self _ h4
end

section
variable (hd : C.Default) (hW : W.NeverStops) (hl : W.Lawful) (hlaw : W.NotRequiredLaw) (hdbg : C.uniondebugconflict = false) (hw : W.Widens C cls)
  {s : LState} (hs : Reachable W C s) (hs' : Reachable (W.retype cls) C s) {v : Val} {t t' : Ty} (hwt : Widened C t t')
  (hnames : ∀ n u, Means (namesIn W s t) n u → ∃ u', Means (namesIn (W.retype cls) s t') n u' ∧ Widened C u u') (hv : KeysDistinct C v)
include hd hW hl hlaw hdbg hw hs hs' hwt hnames hv

/-- **C82** (partial). Data accepted by the old annotations is not refused by wider ones.  For new loaders, or loaders in the same state.  Missing: added
members that are basic types, and as in `C74_refused_partial` (for both programs). -/
theorem C82_accepts_partial (hc : Consistent W C s v t) (hc' : Consistent (W.retype cls) C s v t') {r : Val} {s1 s2 : LState} (h : Loads W C s v t r s1) (e : Exc) :
    ¬ Raises (W.retype cls) C s v t' e s2 :=
  C82_accepts_user_partial hd.mixed hd.calm hd.calm hW hl hlaw hdbg hw hs hs' hwt hnames hv (fun _ _ => hd.usual) (fun _ _ => hd.usual) hc hc' h e

/-- **C82** (partial). When only one member of each new union can take the data it meets, the result is the same as before.  Missing: ambiguous unions
(`C82_ambiguous_counterexample`), added members that are basic types (`C82_basic_counterexample`), and as in `C74_refused_partial`. -/
theorem C82_result_partial (hc : Consistent W C s v t) (hreg : Regular (W.retype cls) C s v t') (hu : Unambiguous (W.retype cls) C s v t') {r1 r2 : Val}
    {s1 s2 : LState} (h1 : Loads W C s v t r1 s1) (h2 : Loads (W.retype cls) C s v t' r2 s2) : r1 = r2 :=
  C82_result_user_partial hd.mixed hd.calm hd.calm hW hl hlaw hdbg hw hs hs' hwt hnames hv (fun _ _ => hd.usual) (fun _ _ => hd.usual) hc hreg hu h1 h2
end

/-! ## The hypotheses are met -/

/-- `List[Union[None, Literal["a"]]]` -/
def Sample.answers : Ty := .coll .list (.union [.prim .none, .lit [.str "a"]])
/-- `List[Union[Literal["a", "c"], List[int], None]]` -/
def Sample.moreAnswers : Ty := .coll .list (.union [.lit [.str "a", .str "c"], .coll .list (.prim .int), .prim .none])

theorem Sample.answers_widened : Widened Sample.C Sample.answers Sample.moreAnswers :=
  .coll (.union (l := [(.prim .none, .prim .none), (.lit [.str "a"], .lit [.str "a", .str "c"])]) (by simp) (by simp)
    (by simp; exact ⟨.refl _, .lit (by simp)⟩) (by
      intro u hu hb
      simp at hu; rcases hu with rfl | rfl | rfl
      · cases hb
      · cases hb
      · simp))

theorem Sample.widens_refl : Sample.W.Widens Sample.C Sample.W.cls where
  kind _ := rfl
  hashable _ := rfl
  fields _ := Zip2.refl (fun f => ⟨f.ty, rfl, .refl _⟩) _

theorem Sample.meets_answers {u : Ty} (h : Meets Sample.W Sample.C (fresh []) Sample.answers u) :
    u = Sample.answers ∨ u = .union [.prim .none, .lit [.str "a"]] ∨ u = .prim .none ∨ u = .lit [.str "a"] := by
  unfold Sample.answers at *
  induction h with
  | self => simp
  | known h => obtain ⟨fr, h1, h2⟩ := h; cases h1; cases h2
  | custom hi _ _ => exact absurd hi (not_installed (C := Sample.C) rfl _)
  | coll _ ih => simp at ih; simp [ih]
  | union _ hu ih => simp at ih; subst ih; simp at hu; rcases hu with rfl | rfl <;> simp
  | _ => simp_all

theorem Sample.meets_moreAnswers {u : Ty} (h : Meets Sample.W Sample.C (fresh []) Sample.moreAnswers u) :
    u = Sample.moreAnswers ∨ u = .union [.lit [.str "a", .str "c"], .coll .list (.prim .int), .prim .none] ∨ u = .prim .none ∨
      u = .lit [.str "a", .str "c"] ∨ u = .coll .list (.prim .int) ∨ u = .prim .int := by
  unfold Sample.moreAnswers at *
  induction h with
  | self => simp
  | known h => obtain ⟨fr, h1, h2⟩ := h; cases h1; cases h2
  | custom hi _ _ => exact absurd hi (not_installed (C := Sample.C) rfl _)
  | coll _ ih => simp at ih; rcases ih with ⟨rfl, rfl⟩ | ⟨rfl, rfl⟩ <;> simp
  | union _ hu ih => simp at ih; subst ih; simp at hu; rcases hu with rfl | rfl | rfl <;> simp
  | _ => simp_all

/-- None of these types makes anything but TypedloadExceptions. -/
theorem Sample.answers_culprit {x : Val} {t : Ty} (h : Culprit Sample.W Sample.C (Known Sample.W (fresh [])) x t) :
    ¬ (t = Sample.moreAnswers ∨ t = Sample.answers ∨ t = .union [.lit [.str "a", .str "c"], .coll .list (.prim .int), .prim .none] ∨
      t = .union [.prim .none, .lit [.str "a"]] ∨ t = .prim .none ∨
      t = .lit [.str "a", .str "c"] ∨ t = .lit [.str "a"] ∨ t = .coll .list (.prim .int) ∨ t = .prim .int) := by
  have hnc : ∀ t i, pick Sample.W Sample.C t ≠ .ok (.custom i) := fun t i h => absurd (pick_installed h) (not_installed (C := Sample.C) rfl _)
  unfold Sample.answers Sample.moreAnswers
  induction h with
  | tag h =>
    simp only [reduceCtorEq, Ty.union.injEq, false_or, or_false]
    rintro (rfl | rfl) <;>
    · obtain ⟨_, _, _, _, h, _⟩ := h
      obtain ⟨_, _, _, h, _⟩ := h (.prim .none) (by simp)
      cases h
  | extraKey h => cases h
  | user h => exact absurd h (hnc _ _)
  | asked h => exact absurd h (hnc _ _)
  | member hu _ ih =>
    simp only [reduceCtorEq, Ty.union.injEq, false_or, or_false]
    rintro (rfl | rfl)
    · simp at hu; rcases hu with rfl | rfl | rfl <;> simp at ih
    · simp at hu; rcases hu with rfl | rfl <;> simp at ih
  | _ => simp_all

theorem Sample.regular_answers (v : Val) : Regular Sample.W Sample.C (fresh []) v Sample.answers where
  names n u h _ _ := by have := Sample.meets_answers h; simp [Sample.answers] at this
  dicts kt vt h := by have := Sample.meets_answers h; simp [Sample.answers] at this
  supported u h := by
    rcases h with ⟨k, h⟩ | ⟨k, h⟩ | ⟨k, h⟩ <;> have := Sample.meets_answers h <;> simp [Sample.answers] at this
    obtain ⟨_, rfl⟩ := this; exact ⟨_, .union⟩
  ints kt vt h := by have := Sample.meets_answers h; simp [Sample.answers] at this
  classes c h := by have := Sample.meets_answers h; simp [Sample.answers] at this
  converters c h := by have := Sample.meets_answers h; simp [Sample.answers] at this
  namespaces c h := by have := Sample.meets_answers h; simp [Sample.answers] at this
  unions ts x h _ hc := Sample.answers_culprit hc (by have := Sample.meets_answers h; tauto)

theorem Sample.regular_moreAnswers (v : Val) : Regular Sample.W Sample.C (fresh []) v Sample.moreAnswers where
  names n u h _ _ := by have := Sample.meets_moreAnswers h; simp [Sample.moreAnswers] at this
  dicts kt vt h := by have := Sample.meets_moreAnswers h; simp [Sample.moreAnswers] at this
  supported u h := by
    rcases h with ⟨k, h⟩ | ⟨k, h⟩ | ⟨k, h⟩ <;> have := Sample.meets_moreAnswers h <;> simp [Sample.moreAnswers] at this
    rcases this with ⟨_, rfl⟩ | ⟨_, rfl⟩
    · exact ⟨_, .union⟩
    · exact ⟨_, .basic (by decide) (by decide)⟩
  ints kt vt h := by have := Sample.meets_moreAnswers h; simp [Sample.moreAnswers] at this
  classes c h := by have := Sample.meets_moreAnswers h; simp [Sample.moreAnswers] at this
  converters c h := by have := Sample.meets_moreAnswers h; simp [Sample.moreAnswers] at this
  namespaces c h := by have := Sample.meets_moreAnswers h; simp [Sample.moreAnswers] at this
  unions ts x h _ hc := Sample.answers_culprit hc (by have := Sample.meets_moreAnswers h; tauto)

theorem Sample.conv_none {F : String → Ty → Prop} {x r : Val} (h : Converts Sample.W Sample.C F x (.prim .none) r) : x = .none := by
  cases h with
  | exact _ h => cases x <;> first | (cases h; done) | rfl
  | cast _ _ h => exact absurd rfl h

theorem Sample.conv_ac {F : String → Ty → Prop} {x r : Val} (h : Converts Sample.W Sample.C F x (.lit [.str "a", .str "c"]) r) : x = .str "a" ∨ x = .str "c" := by
  cases h with
  | lit h1 h2 => simp at h1; rcases h1 with rfl | rfl <;> cases x <;> simp_all [pyEq]

theorem Sample.conv_ints {F : String → Ty → Prop} {x r : Val} (h : Converts Sample.W Sample.C F x (.coll .list (.prim .int)) r) :
    x ≠ .none ∧ x ≠ .str "a" ∧ x ≠ .str "c" := by
  have item : ∀ s y, s = "a" ∨ s = "c" → ¬ ConvertsItem Sample.W Sample.C F (.str s) (.prim .int) y := by
    intro s y hs h
    cases h with
    | conv _ h =>
      cases h with
      | exact _ h => cases h
      | cast _ _ _ _ h => rcases hs with rfl | rfl <;> cases h
    | keep h => obtain ⟨p, h1, _, h2⟩ := h; cases h1; cases h2
  cases h with
  | set h => cases h
  | @coll _ _ _ l _ _ h1 h2 =>
    refine ⟨?_, ?_, ?_⟩ <;> rintro rfl
    · cases h1
    all_goals
      cases l with
      | nil => simp [pyIter] at h1
      | cons q l =>
        simp [pyIter] at h1
        have := h2 q (by simp)
        rw [← h1.1] at this
        exact item _ _ (by simp) this

theorem Sample.unambiguous_answers (v : Val) : Unambiguous Sample.W Sample.C (fresh []) v Sample.answers where
  unions ts x u u' a b h _ hu hu' _ ha hb := by
    have := Sample.meets_answers h; simp [Sample.answers] at this; subst this
    have h1 : ∀ r, ¬ Converts Sample.W Sample.C (Means (namesIn Sample.W (fresh []) Sample.answers)) .none (.lit [.str "a"]) r := by
      intro r h; cases h with
      | lit h1 h2 => simp at h1; subst h1; cases h2
    simp at hu hu'
    rcases hu with rfl | rfl <;> rcases hu' with rfl | rfl <;> try rfl
    · rw [Sample.conv_none ha] at hb; exact absurd hb (h1 _)
    · rw [Sample.conv_none hb] at ha; exact absurd ha (h1 _)
  hints e x u u' a b m m' h := by have := Sample.meets_answers h; simp [Sample.answers] at this
  bools h := by rcases h with ⟨k, h⟩ | ⟨k, h⟩ <;> have := Sample.meets_answers h <;> simp [Sample.answers] at this

theorem Sample.unambiguous_moreAnswers (v : Val) : Unambiguous Sample.W Sample.C (fresh []) v Sample.moreAnswers where
  unions ts x u u' a b h _ hu hu' _ ha hb := by
    have := Sample.meets_moreAnswers h; simp [Sample.moreAnswers] at this; subst this
    simp at hu hu'
    rcases hu with rfl | rfl | rfl <;> rcases hu' with rfl | rfl | rfl <;> try rfl
    · have h1 := Sample.conv_ac ha; have h2 := Sample.conv_ints hb; simp_all
    · have h1 := Sample.conv_ac ha; have h2 := Sample.conv_none hb; simp_all
    · have h1 := Sample.conv_ac hb; have h2 := Sample.conv_ints ha; simp_all
    · have h1 := Sample.conv_none hb; have h2 := Sample.conv_ints ha; simp_all
    · have h1 := Sample.conv_ac hb; have h2 := Sample.conv_none ha; simp_all
    · have h1 := Sample.conv_none ha; have h2 := Sample.conv_ints hb; simp_all
  hints e x u u' a b m m' h := by have := Sample.meets_moreAnswers h; simp [Sample.moreAnswers] at this
  bools h := by rcases h with ⟨k, h⟩ | ⟨k, h⟩ <;> have := Sample.meets_moreAnswers h <;> simp [Sample.moreAnswers] at this

-- whatever the data: what `List[Union[None, Literal["a"]]]` accepts, `List[Union[Literal["a", "c"], List[int], None]]` accepts, with the same result
example (v : Val) (hv : KeysDistinct Sample.C v) (r1 r2 : Val) (s1 s2 : LState) (h1 : Loads Sample.W Sample.C (fresh []) v Sample.answers r1 s1)
    (h2 : Loads (Sample.W.retype Sample.W.cls) Sample.C (fresh []) v Sample.moreAnswers r2 s2) : r1 = r2 :=
  C82_result_partial (cls := Sample.W.cls) (show Sample.C.Default from rfl) Sample.neverStops Sample.lawful Sample.notRequiredLaw rfl Sample.widens_refl
    (.new (some []) []) (.new (some []) []) Sample.answers_widened (by rintro n u ⟨f, h, h2⟩; cases h; simp [aget, Sample.answers, Sample.W] at h2) hv
    ((Sample.unambiguous_answers v).consistent hv (Sample.regular_answers v)) (Sample.regular_moreAnswers v) (Sample.unambiguous_moreAnswers v) h1 h2

example (v : Val) (hv : KeysDistinct Sample.C v) (r : Val) (s1 s2 : LState) (h : Loads Sample.W Sample.C (fresh []) v Sample.answers r s1) (e : Exc) :
    ¬ Raises (Sample.W.retype Sample.W.cls) Sample.C (fresh []) v Sample.moreAnswers e s2 :=
  C82_accepts_partial (cls := Sample.W.cls) (show Sample.C.Default from rfl) Sample.neverStops Sample.lawful Sample.notRequiredLaw rfl Sample.widens_refl
    (.new (some []) []) (.new (some []) []) Sample.answers_widened (by rintro n u ⟨f, h, h2⟩; cases h; simp [aget, Sample.answers, Sample.W] at h2) hv
    ((Sample.unambiguous_answers v).consistent hv (Sample.regular_answers v))
    ((Sample.unambiguous_moreAnswers v).consistent hv (Sample.regular_moreAnswers v)) h e

example : ∃ r s1, Loads Sample.W Sample.C (fresh []) (.list [.str "a", .none]) Sample.answers r s1 := ⟨_, _, 9, rfl⟩

theorem Sample.meets_letters {vs : List Val} {u : Ty} (h : Meets Sample.WB Sample.CB (fresh []) (.coll .list (.lit vs)) u) :
    u = .coll .list (.lit vs) ∨ u = .lit vs := by
  induction h with
  | known h => obtain ⟨fr, h1, h2⟩ := h; simp [fresh] at h1; subst h1; cases h2
  | @custom i x u y w hi _ ha ih =>
    have ha : (Sample.callback x u).Asks y w := ha
    rcases ih with rfl | rfl <;> cases ha
  | _ => simp_all

theorem Sample.regular_letters (vs : List Val) (v : Val) : Regular Sample.WB Sample.CB (fresh []) v (.coll .list (.lit vs)) where
  names n u h := by have := Sample.meets_letters h; simp at this
  dicts kt vt h := by have := Sample.meets_letters h; simp at this
  supported u h := by
    rcases h with ⟨k, h⟩ | ⟨k, h⟩ | ⟨k, h⟩ <;> have := Sample.meets_letters h <;> simp at this
    obtain ⟨_, rfl⟩ := this; exact ⟨_, .literal⟩
  ints kt vt h := by have := Sample.meets_letters h; simp at this
  classes c h := by have := Sample.meets_letters h; simp at this
  converters c h := by have := Sample.meets_letters h; simp at this
  namespaces c h := by have := Sample.meets_letters h; simp at this
  unions ts x h := by have := Sample.meets_letters h; simp at this

theorem Sample.unambiguous_letters (vs : List Val) (v : Val) : Unambiguous Sample.WB Sample.CB (fresh []) v (.coll .list (.lit vs)) where
  unions ts x u u' a b h := by have := Sample.meets_letters h; simp at this
  hints e x u u' a b m m' h := by have := Sample.meets_letters h; simp at this
  bools h := by rcases h with ⟨k, h⟩ | ⟨k, h⟩ <;> have := Sample.meets_letters h <;> simp at this

/-- The hypotheses of `C82_result_user_partial` and `C82_accepts_user_partial`: `List[Literal['a']]` becomes `List[Literal['a', 'c']]`, with a handler of the user
for other types. -/
example (v : Val) (hv : KeysDistinct Sample.CB v) (r1 : Val) (s1 : LState) (h1 : Loads Sample.WB Sample.CB (fresh []) v (.coll .list (.lit [.str "a"])) r1 s1) :
    (∀ r2 s2, Loads (Sample.WB.retype Sample.WB.cls) Sample.CB (fresh []) v (.coll .list (.lit [.str "a", .str "c"])) r2 s2 → r1 = r2) ∧
    ∀ e s2, ¬ Raises (Sample.WB.retype Sample.WB.cls) Sample.CB (fresh []) v (.coll .list (.lit [.str "a", .str "c"])) e s2 := by
  have hus : ∀ vs, ∀ u, Meets Sample.WB Sample.CB (fresh []) (.coll .list (.lit vs)) u → Sample.CB.Usual Sample.WB u :=
    fun vs u hu => by rcases Sample.meets_letters hu with rfl | rfl <;> rfl
  have hw : Sample.WB.Widens Sample.CB Sample.WB.cls := ⟨fun _ => rfl, fun _ => rfl, fun _ => Zip2.refl (fun f => ⟨f.ty, rfl, .refl _⟩) _⟩
  have hn : ∀ n u, Means (namesIn Sample.WB (fresh []) (.coll .list (.lit [.str "a"]))) n u →
      ∃ u', Means (namesIn (Sample.WB.retype Sample.WB.cls) (fresh []) (.coll .list (.lit [.str "a", .str "c"]))) n u' ∧ Widened Sample.CB u u' := by
    rintro n u ⟨f, h, h2⟩; cases h; simp [aget, Sample.WB, Sample.W] at h2
  have hNS : Sample.WB.NeverStops := ⟨Sample.neverStops.1, Sample.neverStops.2, Sample.neverStops.3, Sample.neverStops.4⟩
  have hc : ∀ vs, Consistent Sample.WB Sample.CB (fresh []) v (.coll .list (.lit vs)) := fun vs => (Sample.unambiguous_letters vs v).consistent hv (Sample.regular_letters vs v)
  exact ⟨fun r2 s2 h2 => C82_result_user_partial (cls := Sample.WB.cls) Sample.mixedB Sample.calmB Sample.calmB hNS Sample.lawfulB (fun c => Sample.notRequiredLaw c)
      rfl hw (.new (some []) []) (.new (some []) []) (.coll (.lit (by simp))) hn hv (hus _) (hus _) (hc _) (Sample.regular_letters _ v) (Sample.unambiguous_letters _ v) h1 h2,
    fun e s2 => C82_accepts_user_partial (cls := Sample.WB.cls) Sample.mixedB Sample.calmB Sample.calmB hNS Sample.lawfulB (fun c => Sample.notRequiredLaw c)
      rfl hw (.new (some []) []) (.new (some []) []) (.coll (.lit (by simp))) hn hv (hus _) (hus _) (hc _) (hc _) h1 e⟩

example : ∃ r s1, Loads Sample.WB Sample.CB (fresh []) (.list [.str "a"]) (.coll .list (.lit [.str "a"])) r s1 := ⟨_, _, 9, rfl⟩

/-- **C82** A basic type added to a union changes what the data becomes: `"5"` becomes the number 5 with `Optional[int]` and stays a string with
`Union[int, None, str]`. -/
theorem C82_basic_counterexample : ∃ (W : World) (C : Config) (v : Val) (ts ts' : List Ty) (r r' : Val), C.Default ∧ (∃ us, ts' = ts ++ us) ∧
    (∃ s', Loads W C (fresh []) v (.union ts) r s') ∧ (∃ s', Loads W C (fresh []) v (.union ts') r' s') ∧ pyEq r r' = false :=
  ⟨Sample.W, Sample.C, .str "5", [.prim .int, .prim .none], [.prim .int, .prim .none, .prim .str], .int 5, .str "5", rfl, ⟨_, rfl⟩, ⟨_, 9, rfl⟩, ⟨_, 9, rfl⟩, rfl⟩

/-- **C82** An added member can take the data away from a member that took it before. -/
theorem C82_ambiguous_counterexample : ∃ (W : World) (C : Config) (v : Val) (t t' : Ty) (r r' : Val), C.Default ∧ Widened C t t' ∧
    (∃ s', Loads W C (fresh []) v t r s') ∧ (∃ s', Loads W C (fresh []) v t' r' s') ∧ pyEq r r' = false :=
  ⟨Sample.W, Sample.C, .list [.int 1], .coll .list (.prim .int), .union [.coll .tuple (.prim .int), .coll .list (.prim .int)], .list [.int 1], .tuple [.int 1], rfl,
    .into rfl (by simp) (by intro u hu; simp at hu; rcases hu with rfl | rfl <;> rfl), ⟨_, 9, rfl⟩, ⟨_, 9, rfl⟩, rfl⟩

/-- **C82** An added member that fails with something else than a TypedloadException makes the union refuse the data: `load(5, Union[timedelta, None])` is
five seconds, `load(5, Union[Tuple[int, int], timedelta, None])` raises AssertionError. -/
theorem C82_crash_counterexample : ∃ (W : World) (C : Config) (v : Val) (t t' : Ty) (r : Val) (e : Exc), C.Default ∧ Widened C t t' ∧
    (∃ s', Loads W C (fresh []) v t r s') ∧ (∃ s', Raises W C (fresh []) v t' e s') ∧ e.isTL = false :=
  ⟨Sample.W, Sample.C, .int 5, .union [.timedelta, .prim .none], .union [.tuple [.prim .int, .prim .int], .timedelta, .prim .none], _, _, rfl,
    .union (l := [(.timedelta, .timedelta), (.prim .none, .prim .none)]) (by simp) (by simp) (by simp; exact ⟨.refl _, .refl _⟩) (by
      intro u hu hb
      simp at hu; rcases hu with rfl | rfl | rfl
      · cases hb
      · simp
      · simp), ⟨_, 9, rfl⟩, ⟨_, 9, rfl⟩, rfl⟩

end TL
