import Verif.Spec.Reorder
import Verif.Props.HashSeedLoad
import Verif.Lemmas.ShuffleAll
/-!
# C81: the order of the members of unions
-/

namespace TL

variable {W : World} {C : Config} {cls : Nat → ClassDef}

theorem Reordered.symm {t t' : Ty} (h : Reordered t t') : Reordered t' t := by
  induction h with
  | refl t => exact .refl t
  | coll _ ih => exact .coll ih
  | @tuple l _ ih =>
    have := Reordered.tuple (l := l.map Prod.swap) (fun q hq => by
      obtain ⟨p, hp, rfl⟩ := List.mem_map.1 hq; exact ih p hp)
    simpa [Function.comp_def] using this
  | dict _ _ h1 h2 => exact .dict h1 h2
  | newtype _ ih => exact .newtype ih
  | @union ts ts' l h1 h2 _ ih =>
    refine .union (l := l.map Prod.swap) (fun u => ?_) (fun u => ?_) (fun q hq => by
      obtain ⟨p, hp, rfl⟩ := List.mem_map.1 hq; exact ih p hp)
    · rw [h2]; simp
    · rw [h1]; simp

theorem Reordered.prim_left {p : Prim} {t : Ty} (h : Reordered (.prim p) t) : t = .prim p := by cases h; rfl
theorem Reordered.prim_right {p : Prim} {t : Ty} (h : Reordered t (.prim p)) : t = .prim p := by cases h; rfl
theorem Reordered.obj_left {c : Nat} {t : Ty} (h : Reordered (.obj c) t) : t = .obj c := by cases h; rfl
theorem Reordered.obj_right {c : Nat} {t : Ty} (h : Reordered t (.obj c)) : t = .obj c := by cases h; rfl
theorem Reordered.lit_right {vs : List Val} {t : Ty} (h : Reordered t (.lit vs)) : t = .lit vs := by cases h; rfl
theorem Reordered.enum_right {e : Nat} {t : Ty} (h : Reordered t (.enum e)) : t = .enum e := by cases h; rfl
theorem Reordered.fref_right {n : String} {t : Ty} (h : Reordered t (.fref n)) : t = .fref n := by cases h; rfl
theorem Reordered.coll_right {k : SeqKind} {t u : Ty} (h : Reordered t (.coll k u)) : ∃ u', t = .coll k u' ∧ Reordered u' u := by
  cases h with
  | refl => exact ⟨_, rfl, .refl _⟩
  | coll h => exact ⟨_, rfl, h⟩
theorem Reordered.dict_right {t k u : Ty} (h : Reordered t (.dict k u)) : ∃ k' u', t = .dict k' u' ∧ Reordered k' k ∧ Reordered u' u := by
  cases h with
  | refl => exact ⟨_, _, rfl, .refl _, .refl _⟩
  | dict h1 h2 => exact ⟨_, _, rfl, h1, h2⟩
theorem Reordered.newtype_right {n : String} {t u : Ty} (h : Reordered t (.newtype n u)) : ∃ u', t = .newtype n u' ∧ Reordered u' u := by
  cases h with
  | refl => exact ⟨_, rfl, .refl _⟩
  | newtype h => exact ⟨_, rfl, h⟩
theorem Reordered.tuple_right {t : Ty} {us : List Ty} (h : Reordered t (.tuple us)) :
    ∃ l : List (Ty × Ty), t = .tuple (l.map (·.1)) ∧ us = l.map (·.2) ∧ ∀ q ∈ l, Reordered q.1 q.2 := by
  cases h with
  | refl => exact ⟨us.map (fun u => (u, u)), by simp [Function.comp_def], by simp [Function.comp_def], by simpa using fun a _ => .refl a⟩
  | tuple h => exact ⟨_, rfl, rfl, h⟩
theorem Reordered.union_right {t : Ty} {us : List Ty} (h : Reordered t (.union us)) :
    ∃ (ts : List Ty) (l : List (Ty × Ty)), t = .union ts ∧ (∀ u, u ∈ ts ↔ u ∈ l.map (·.1)) ∧ (∀ u, u ∈ us ↔ u ∈ l.map (·.2)) ∧ ∀ q ∈ l, Reordered q.1 q.2 := by
  cases h with
  | refl =>
    exact ⟨us, us.map (fun u => (u, u)), rfl, by simp, by simp, by simpa using fun a _ => .refl a⟩
  | union h1 h2 h3 => exact ⟨_, _, rfl, h1, h2, h3⟩

theorem Reordered.isBasic {t t' : Ty} (h : Reordered t t') : C.isBasic t = C.isBasic t' := by cases h <;> rfl

theorem World.Reorders.symm (h : W.Reorders cls) : (W.retype cls).Reorders W.cls where
  kind c := (h.kind c).symm
  hashable c := (h.hashable c).symm
  fields c := (h.fields c).flip.mono (by rintro f _ ⟨u, rfl, hr⟩; exact ⟨_, rfl, hr.symm⟩)
  names := h.names

theorem World.Reorders.hash (h : W.Reorders cls) : (W.retype cls).hash = W.hash := by
  have : (W.retype cls).hc = W.hc := funext fun c => h.hashable c
  funext v
  unfold World.hash; rw [this]

theorem SameField.name {f f' : Field} (h : SameField f f') : f'.name = f.name := by obtain ⟨_, rfl, _⟩ := h; rfl
theorem SameField.ext {f f' : Field} (h : SameField f f') (k : ObjKind) : extName C k f' = extName C k f := by obtain ⟨_, rfl, _⟩ := h; rfl

theorem Zip2.map_eq {α β γ : Type} {R : α → β → Prop} {f : α → γ} {g : β → γ} {as : List α} {bs : List β} (h : Zip2 R as bs) (hfg : ∀ a b, R a b → g b = f a) :
    bs.map g = as.map f := by
  induction h with
  | nil => rfl
  | cons h _ ih => simp [ih, hfg _ _ h]

theorem SameField.fieldTy {f f' : Field} (h : SameField f f') {k : ObjKind} {t : Ty} (ht : FieldTy k f t) : ∃ t', FieldTy k f' t' ∧ Reordered t t' := by
  obtain ⟨u, rfl, hr⟩ := h
  cases ht with
  | declared h => exact ⟨_, .declared h, hr⟩
  | converter cv h1 h2 h3 h4 => exact ⟨_, .converter cv h1 h2 h3 h4, .refl _⟩
  | untyped cv h1 h2 h3 h4 => exact ⟨_, .untyped cv h1 h2 h3 h4, .refl _⟩
  | manyHints cv h1 h2 h3 => exact ⟨_, .manyHints cv h1 h2 h3, .refl _⟩

theorem Reordered.basicInstance {t t' : Ty} (h : Reordered t t') {x : Val} : BasicInstance C t x ↔ BasicInstance C t' x := by
  constructor
  · rintro ⟨p, rfl, h1, h2⟩; exact ⟨p, h.prim_left, h1, h2⟩
  · rintro ⟨p, rfl, h1, h2⟩; exact ⟨p, h.prim_right, h1, h2⟩

theorem Reordered.exactBasic {ts ts' : List Ty} (h : ∀ u' ∈ ts', ∃ u ∈ ts, Reordered u u') {v : Val} (hx : ExactBasic C v ts') : ExactBasic C v ts := by
  obtain ⟨hb, hm⟩ := hx
  refine ⟨hb, ?_⟩
  obtain ⟨u, hu, hr⟩ := h _ hm
  cases hp : typeOf v with
  | prim p => rw [hp] at hr; rw [← hr.prim_right]; exact hu
  | _ => rw [hp] at hb; simp [Config.isBasic] at hb

/-- What data becomes does not depend on the order of the members of unions. -/
theorem Converts.reorder (hw : W.Reorders cls) {F F' : String → Ty → Prop} (hF : ∀ n u, F n u → ∃ u', F' n u' ∧ Reordered u u') {v : Val} {t : Ty} {r : Val}
    (h : Converts W C F v t r) : ∀ t', Reordered t t' → Converts (W.retype cls) C F' v t' r := by
  have hh := hw.hash
  refine Converts.rec (W := W) (C := C) (F := F)
    (motive_1 := fun v t r _ => ∀ t', Reordered t t' → Converts (W.retype cls) C F' v t' r)
    (motive_2 := fun v t r _ => ∀ t', Reordered t t' → ConvertsItem (W.retype cls) C F' v t' r)
    (motive_3 := fun v t r _ => ∀ t', Reordered t t' → ConvertsElem (W.retype cls) C F' v t' r)
    (motive_4 := fun c kvs f o _ => ∀ f', SameField f f' → FieldConv (W.retype cls) C F' c kvs f' o)
    ?_ ?_ ?_ ?_ ?_ ?_ ?_ ?_ ?_ ?_ ?_ ?_ ?_ ?_ ?_ ?_ ?_ ?_ ?_ ?_ ?_ ?_ ?_ ?_ ?_ ?_ h
  · intro p v h1 h2 t' hr; cases hr; exact .exact h1 h2
  · intro p v r h1 h2 h3 h4 h5 t' hr; cases hr; exact .cast h1 h2 h3 h4 h5
  · intro v t' hr; cases hr; exact .any
  · intro vs l v h1 h2 t' hr; cases hr; exact .lit h1 h2
  · intro e v m h t' hr; cases hr; exact .enum h
  · intro e v u x m h1 h2 _ h3 ih t' hr; cases hr; exact .hint h1 h2 (ih _ (.refl _)) h3
  · intro k v r h t' hr; cases hr; exact .dt h
  · intro v r h t' hr; cases hr; exact .timedelta h
  · intro a v r h t' hr; cases hr; exact .pattern h
  · intro c v r h1 h2 t' hr; cases hr; exact .strcons h1 h2
  · intro k t v l h1 h2 h3 _ ih t' hr
    obtain ⟨u, rfl, hu⟩ := hr.symm.coll_right
    exact .coll h1 h2 h3 (fun q hq => ih q hq _ hu.symm)
  · intro k t v l h1 h2 h3 _ h4 ih t' hr
    obtain ⟨u, rfl, hu⟩ := hr.symm.coll_right
    exact .set h1 h2 h3 (fun q hq => ih q hq _ hu.symm) (by rw [hh]; exact h4)
  · intro v l rest h1 h2 h3 _ ih t' hr
    obtain ⟨m, rfl, hm, hq⟩ := hr.symm.tuple_right
    -- `m` pairs the new component types with the old ones
    have key : ∀ (l : List (Val × Ty × Val)) (m : List (Ty × Ty)), l.map (·.2.1) = m.map (·.2) → (∀ q ∈ m, Reordered q.1 q.2) →
        (∀ q ∈ l, ∀ t', Reordered q.2.1 t' → Converts (W.retype cls) C F' q.1 t' q.2.2) →
        ∃ l' : List (Val × Ty × Val), l'.map (·.1) = l.map (·.1) ∧ l'.map (·.2.1) = m.map (·.1) ∧ l'.map (·.2.2) = l.map (·.2.2) ∧
          ∀ q ∈ l', Converts (W.retype cls) C F' q.1 q.2.1 q.2.2 := by
      intro l
      induction l with
      | nil => intro m hm _ _; simp at hm; subst hm; exact ⟨[], by simp⟩
      | cons a l il =>
        intro m hm hq hi
        cases m with
        | nil => simp at hm
        | cons b m =>
          simp only [List.map_cons, List.cons.injEq] at hm
          obtain ⟨l', e1, e2, e3, e4⟩ := il m hm.2 (fun q h => hq q (by simp [h])) (fun q h => hi q (by simp [h]))
          refine ⟨(a.1, b.1, a.2.2) :: l', by simp [e1], by simp [e2], by simp [e3], ?_⟩
          intro q hq'
          simp only [List.mem_cons] at hq'
          rcases hq' with rfl | hq'
          · refine hi a (by simp) _ ?_
            rw [hm.1]; exact (hq b (by simp)).symm
          · exact e4 q hq'
    obtain ⟨l', e1, e2, e3, e4⟩ := key l m hm hq ih
    rw [← e2, ← e3]
    exact .tuple (rest := rest) h1 (by rw [e1]; exact h2) h3 e4
  · intro kt vt v l h1 _ _ h2 ih1 ih2 t' hr
    obtain ⟨k', u', rfl, hk, hu⟩ := hr.symm.dict_right
    exact .dict h1 (fun q hq => ih1 q hq _ hk.symm) (fun q hq => ih2 q hq _ hu.symm) (by rw [hh]; exact h2)
  · intro ts u v r h1 h2 _ ih t' hr
    obtain ⟨ts', l, rfl, e1, e2, e3⟩ := hr.symm.union_right
    by_cases hx : ExactBasic C v ts'
    · have hx' : ExactBasic C v ts := by
        refine Reordered.exactBasic (fun u' hu' => ?_) hx
        rw [e1] at hu'
        obtain ⟨q, hq, rfl⟩ := List.mem_map.1 hu'
        exact ⟨q.2, by rw [e2]; exact List.mem_map_of_mem hq, (e3 q hq).symm⟩
      have := h2 hx'
      subst this
      exact .union hx.2 (fun _ => rfl) (ih _ (.refl _))
    · rw [e2] at h1
      simp only [List.mem_map] at h1
      obtain ⟨q, hq, rfl⟩ := h1
      exact .union (by rw [e1]; exact List.mem_map_of_mem hq) (fun h => absurd h hx) (ih _ (e3 q hq).symm)
  · intro n u v r h1 _ ih t' hr
    cases hr
    obtain ⟨u', h2, h3⟩ := hF n u h1
    exact .fref h2 (ih _ h3)
  · intro n u v r _ ih t' hr
    obtain ⟨u', rfl, hu⟩ := hr.symm.newtype_right
    exact .newtype (ih _ hu.symm)
  · intro c v kvs l h1 h2 h3 h4 h5 _ h6 ih t' hr
    cases hr
    have hz := hw.fields c
    have hk : ((W.retype cls).cls c).kind = (W.cls c).kind := hw.kind c
    have hn : ((W.retype cls).cls c).fields.map (·.name) = (W.cls c).fields.map (·.name) := hz.map_eq (fun _ _ h => h.name)
    obtain ⟨m, rfl, hm⟩ := choose_list (R := fun (q : Field × Val × Val) (f' : Field) => f' ∈ (cls c).fields ∧ SameField q.1 f') (l := l) (fun q hq => by
      obtain ⟨f', h7, h8⟩ := hz.mem_left (h5 q hq)
      exact ⟨f', h7, h8⟩)
    have e : ∀ {γ : Type} (g : String → Val → Val → γ), (m.map (fun p => (p.2, p.1.2))).map (fun q : Field × Val × Val => g q.1.name q.2.1 q.2.2) =
        (m.map (·.1)).map (fun q => g q.1.name q.2.1 q.2.2) := by
      intro γ g
      simp only [List.map_map]
      apply List.map_congr_left
      intro p hp
      simp [(hm p hp).2.name]
    have e' := e (fun n _ y => ((Val.str n), y))
    rw [← e']
    refine .typeddict (by rw [hk]; exact h1) h2 ?_ ?_ ?_ ?_ ?_ (kvs := kvs)
    · intro hf p hp
      obtain ⟨f, hf1, hf2⟩ := h3 hf p hp
      obtain ⟨f', h7, h8⟩ := hz.mem_left hf1
      exact ⟨f', h7, by rw [hk, h8.ext]; exact hf2⟩
    · rw [hn, h4]; exact (e (fun n x _ => ((Val.str n), x))).symm
    · intro q hq
      obtain ⟨p, hp, rfl⟩ := List.mem_map.1 hq
      exact (hm p hp).1
    · intro q hq
      obtain ⟨p, hp, rfl⟩ := List.mem_map.1 hq
      obtain ⟨u, h7, h8⟩ := (hm p hp).2
      refine ih p.1 (List.mem_map_of_mem hp) _ ?_
      dsimp only
      rw [h7]; exact h8
    · intro f' hf' h7 h8
      obtain ⟨f, hf, hs⟩ := hz.mem_right hf'
      have hname := hs.name
      obtain ⟨u, rfl, _⟩ := hs
      have := h6 f hf h7 h8
      rw [hname, show (m.map (fun p => (p.2, p.1.2))).map (fun q : Field × Val × Val => q.1.name) = _ from e (fun n _ _ => n)]
      exact this
  · intro c v kvs r l h1 h2 h3 h4 _ h5 ih t' hr
    cases hr
    have hz := hw.fields c
    have hk : ((W.retype cls).cls c).kind = (W.cls c).kind := hw.kind c
    rw [h4] at hz
    have key : ∀ (l : List (Field × Option Val)) (fs : List Field), Zip2 SameField (l.map (·.1)) fs →
        (∀ q ∈ l, ∀ f', SameField q.1 f' → FieldConv (W.retype cls) C F' c kvs f' q.2) →
        ∃ l' : List (Field × Option Val), fs = l'.map (·.1) ∧ (∀ q ∈ l', FieldConv (W.retype cls) C F' c kvs q.1 q.2) ∧
          l'.filterMap (fun q => q.2.map (fun y => (q.1.name, y))) = l.filterMap (fun q => q.2.map (fun y => (q.1.name, y))) := by
      intro l
      induction l with
      | nil => intro fs hz _; cases hz; exact ⟨[], by simp⟩
      | cons a l il =>
        intro fs hz hi
        cases hz with
        | @cons _ f' _ fs hs hz =>
          obtain ⟨l', e1, e2, e3⟩ := il fs hz (fun q hq => hi q (by simp [hq]))
          refine ⟨(f', a.2) :: l', by simp [e1], ?_, ?_⟩
          · intro q hq
            simp only [List.mem_cons] at hq
            rcases hq with rfl | hq
            · exact hi a (by simp) _ hs
            · exact e2 q hq
          · simp only [List.filterMap_cons, hs.name, e3]
    obtain ⟨l', e1, e2, e3⟩ := key l _ hz ih
    refine .obj (kvs := kvs) (l := l') (by rw [hk]; exact h1) h2 ?_ e1 e2 ?_
    · intro hf p hp
      obtain ⟨f, hf1, hf2⟩ := h3 hf p hp
      rw [h4] at hf1
      obtain ⟨f', h7, h8⟩ := hz.mem_left hf1
      exact ⟨f', h7, by rw [hk, h8.ext]; exact hf2⟩
    · rw [e3]
      unfold Built
      rw [hk]
      exact h5
  · intro v t r h1 _ ih t' hr; exact .conv (by rw [← hr.basicInstance]; exact h1) (ih _ hr)
  · intro t v h t' hr; exact .keep (hr.basicInstance.1 h)
  · intro v t r _ ih t' hr; exact .conv (ih _ hr)
  · intro p v h1 h2 t' hr; cases hr; exact .keep h1 h2
  · intro c kvs f x t y h1 h2 h3 _ ih f' hf
    obtain ⟨t', h4, h5⟩ := hf.fieldTy h3
    have hk : ((W.retype cls).cls c).kind = (W.cls c).kind := hw.kind c
    refine .loaded (t := t') ?_ ?_ ?_ (ih _ h5)
    · rw [hk]; obtain ⟨_, rfl, _⟩ := hf; exact h1
    · rw [hk, hf.ext]; exact h2
    · rw [hk]; exact h4
  · intro c kvs f d h1 h2 f' hf
    have hk : ((W.retype cls).cls c).kind = (W.cls c).kind := hw.kind c
    exact .default (by rw [hk, hf.ext]; exact h1) (by obtain ⟨_, rfl, _⟩ := hf; exact h2)
  · intro c kvs f h1 h2 h3 h4 f' hf
    have hk : ((W.retype cls).cls c).kind = (W.cls c).kind := hw.kind c
    exact .unset (by rw [hk]; exact h1) (by rw [hk, hf.ext]; exact h2) (by obtain ⟨_, rfl, _⟩ := hf; exact h3) (by obtain ⟨_, rfl, _⟩ := hf; exact h4)

theorem ConvertsItem.reorder (hw : W.Reorders cls) {F F' : String → Ty → Prop} (hF : ∀ n u, F n u → ∃ u', F' n u' ∧ Reordered u u') {v : Val} {t t' : Ty} {r : Val}
    (h : ConvertsItem W C F v t r) (hr : Reordered t t') : ConvertsItem (W.retype cls) C F' v t' r := by
  cases h with
  | conv h1 h2 => exact .conv (by rw [← hr.basicInstance]; exact h1) (h2.reorder hw hF _ hr)
  | keep h => exact .keep (hr.basicInstance.1 h)

theorem ConvertsElem.reorder (hw : W.Reorders cls) {F F' : String → Ty → Prop} (hF : ∀ n u, F n u → ∃ u', F' n u' ∧ Reordered u u') {v : Val} {t t' : Ty} {r : Val}
    (h : ConvertsElem W C F v t r) (hr : Reordered t t') : ConvertsElem (W.retype cls) C F' v t' r := by
  cases h with
  | conv h => exact .conv (h.reorder hw hF _ hr)
  | keep h1 h2 => cases hr; exact .keep h1 h2

theorem SameField.symm {f f' : Field} (h : SameField f f') : SameField f' f := by
  obtain ⟨u, rfl, hr⟩ := h; exact ⟨_, rfl, hr.symm⟩

/-- The types met in the rewritten program are those met in the original one, rewritten. -/
theorem Meets.reordered (hd : C.Default) (hw : W.Reorders cls) {s : LState} {t t' u' : Ty} (hr : Reordered t t') (h : Meets (W.retype cls) C s t' u') :
    ∃ u, Meets W C s t u ∧ Reordered u u' := by
  induction h with
  | self => exact ⟨t, .self, hr⟩
  | known h => exact ⟨_, .known h, .refl _⟩
  | coll _ ih =>
    obtain ⟨u, h1, h2⟩ := ih
    obtain ⟨u', rfl, h3⟩ := h2.coll_right
    exact ⟨_, .coll h1, h3⟩
  | tuple _ hm ih =>
    obtain ⟨u, h1, h2⟩ := ih
    obtain ⟨l, rfl, rfl, h3⟩ := h2.tuple_right
    obtain ⟨q, hq, rfl⟩ := List.mem_map.1 hm
    exact ⟨_, .tuple h1 (List.mem_map_of_mem hq), h3 q hq⟩
  | dictKey _ ih =>
    obtain ⟨u, h1, h2⟩ := ih
    obtain ⟨k', u', rfl, h3, h4⟩ := h2.dict_right
    exact ⟨_, .dictKey h1, h3⟩
  | dictVal _ ih =>
    obtain ⟨u, h1, h2⟩ := ih
    obtain ⟨k', u', rfl, h3, h4⟩ := h2.dict_right
    exact ⟨_, .dictVal h1, h4⟩
  | union _ hm ih =>
    obtain ⟨u, h1, h2⟩ := ih
    obtain ⟨ts, l, rfl, e1, e2, e3⟩ := h2.union_right
    rw [e2] at hm
    obtain ⟨q, hq, rfl⟩ := List.mem_map.1 hm
    exact ⟨_, .union h1 (by rw [e1]; exact List.mem_map_of_mem hq), e3 q hq⟩
  | newtype _ ih =>
    obtain ⟨u, h1, h2⟩ := ih
    obtain ⟨u', rfl, h3⟩ := h2.newtype_right
    exact ⟨_, .newtype h1, h3⟩
  | enum _ hm ih =>
    obtain ⟨u, h1, h2⟩ := ih
    rw [h2.enum_right] at h1
    exact ⟨_, .enum h1 hm, .refl _⟩
  | @field c f' u' _ hm hf ih =>
    obtain ⟨u, h1, h2⟩ := ih
    rw [h2.obj_right] at h1
    obtain ⟨f, h3, h4⟩ := (hw.fields c).mem_right hm
    have hk : ((W.retype cls).cls c).kind = (W.cls c).kind := hw.kind c
    rw [hk] at hf
    obtain ⟨u, h5, h6⟩ := h4.symm.fieldTy hf
    exact ⟨u, .field h1 h3 h5, h6.symm⟩
  | custom hi => exact absurd hi (not_installed hd _)

theorem Served.reordered (hw : W.Reorders cls) {t t' : Ty} {h : Handler} (hs : Served W C t h) (hr : Reordered t t') : ∃ h', Served (W.retype cls) C t' h' := by
  have hk : ∀ c, ((W.retype cls).cls c).kind = (W.cls c).kind := hw.kind
  cases hr with
  | refl =>
    refine ⟨h, ?_⟩
    cases hs <;> first
      | (constructor; done)
      | (constructor <;> assumption)
      | (constructor; rw [hk]; assumption)
  | @coll k => cases k <;> exact ⟨_, by constructor⟩
  | tuple => exact ⟨_, .tuple⟩
  | dict => exact ⟨_, .dict⟩
  | newtype => exact ⟨_, .newtype⟩
  | union => exact ⟨_, .union⟩

theorem Unhashy.reordered (hd : C.Default) (hw : W.Reorders cls) {F F' : String → Ty → Prop} (hF : ∀ n u, F n u → ∃ u', F' n u' ∧ Reordered u u') {t : Ty}
    (h : Unhashy W C F t) : ∀ t', Reordered t t' → Unhashy (W.retype cls) C F' t' := by
  have hk : ∀ c, ((W.retype cls).cls c).kind = (W.cls c).kind := hw.kind
  have hh := hw.hash
  induction h with
  | any => intro t' hr; cases hr; exact .any
  | lit => intro t' hr; cases hr; exact .lit
  | list => intro t' hr; obtain ⟨u, rfl, _⟩ := hr.symm.coll_right; exact .list
  | set => intro t' hr; obtain ⟨u, rfl, _⟩ := hr.symm.coll_right; exact .set
  | elem _ ih => intro t' hr; obtain ⟨u, rfl, h⟩ := hr.symm.coll_right; exact .elem (ih _ h.symm)
  | tuple hm _ ih =>
    intro t' hr
    obtain ⟨l, rfl, rfl, h3⟩ := hr.symm.tuple_right
    obtain ⟨q, hq, rfl⟩ := List.mem_map.1 hm
    exact .tuple (List.mem_map_of_mem hq) (ih _ (h3 q hq).symm)
  | dict => intro t' hr; obtain ⟨k', u', rfl, _⟩ := hr.symm.dict_right; exact .dict
  | union hm _ ih =>
    intro t' hr
    obtain ⟨ts, l, rfl, e1, e2, e3⟩ := hr.symm.union_right
    rw [e2] at hm
    obtain ⟨q, hq, rfl⟩ := List.mem_map.1 hm
    exact .union (by rw [e1]; exact List.mem_map_of_mem hq) (ih _ (e3 q hq).symm)
  | newtype _ ih => intro t' hr; obtain ⟨u, rfl, h⟩ := hr.symm.newtype_right; exact .newtype (ih _ h.symm)
  | fref h _ ih =>
    intro t' hr; cases hr
    obtain ⟨u', h1, h2⟩ := hF _ _ h
    exact .fref h1 (ih _ h2)
  | typeddict h => intro t' hr; cases hr; exact .typeddict (by rw [hk]; exact h)
  | inst h1 h2 => intro t' hr; cases hr; exact .inst (by rw [hk]; exact h1) ((hw.hashable _).trans h2)
  | @field c f t h1 h2 _ ih =>
    intro t' hr; cases hr
    obtain ⟨f', h3, h4⟩ := (hw.fields c).mem_left h1
    obtain ⟨u, h5, h6⟩ := h4.fieldTy h2
    exact .field h3 (by rw [hk]; exact h5) (ih _ h6)
  | @default c f x h1 h2 h3 =>
    intro t' hr; cases hr
    obtain ⟨f', h4, u, rfl, _⟩ := (hw.fields c).mem_left h1
    exact .default h4 h2 (by rw [hh]; exact h3)
  | init h1 h2 h3 h4 => intro t' hr; cases hr; exact .init h1 h2 h3 (by rw [hh]; exact h4)
  | user h1 => exact absurd (pick_installed h1) (not_installed hd _)

theorem HasLiteralField.reordered (hw : W.Reorders cls) {u u' : Ty} {k : String} (h : HasLiteralField W u k) (hr : Reordered u u') : HasLiteralField (W.retype cls) u' k := by
  obtain ⟨c, f, vs, rfl, h1, h2, h3⟩ := h
  obtain ⟨f', h4, x, rfl, h5⟩ := (hw.fields c).mem_left h1
  rw [h3] at h5
  exact ⟨c, _, vs, hr.obj_left, h4, h2, h5.symm.lit_right⟩

theorem Culprit.reordered (hd : C.Default) (hw : W.Reorders cls) {F F' : String → Ty → Prop} (hF : ∀ n u, F n u → ∃ u', F' n u' ∧ Reordered u u') {v : Val} {t : Ty}
    (h : Culprit W C F v t) : ∀ t', Reordered t t' → Culprit (W.retype cls) C F' v t' := by
  have hk : ∀ c, ((W.retype cls).cls c).kind = (W.cls c).kind := hw.kind
  have hh := hw.hash
  induction h with
  | tuple h => intro t' hr; obtain ⟨l, rfl, _⟩ := hr.symm.tuple_right; exact .tuple h
  | tag h =>
    intro t' hr
    obtain ⟨kvs, k, x, h1, h2, h3, h4⟩ := h
    obtain ⟨ts, l, rfl, e1, e2, e3⟩ := hr.symm.union_right
    refine .tag ⟨kvs, k, x, h1, fun u hu => ?_, h3, by rw [hh]; exact h4⟩
    rw [e1] at hu
    obtain ⟨q, hq, rfl⟩ := List.mem_map.1 hu
    exact (h2 q.2 (by rw [e2]; exact List.mem_map_of_mem hq)).reordered hw (e3 q hq).symm
  | keyHash h1 h2 h3 => intro t' hr; obtain ⟨k', u', rfl, h4, _⟩ := hr.symm.dict_right; exact .keyHash h1 h2 (h3.reordered hd hw hF _ h4.symm)
  | extraKey h1 h2 h3 h4 => intro t' hr; cases hr; exact .extraKey h1 h2 h3 h4
  | constructor h1 h2 => intro t' hr; cases hr; exact .constructor h1 h2
  | @converter v c f cv h1 h2 h3 h4 h5 =>
    intro t' hr; cases hr
    obtain ⟨f', h6, u, rfl, _⟩ := (hw.fields c).mem_left h2
    exact .converter (by rw [hk]; exact h1) h6 h3 h4 h5
  | date h1 h2 => intro t' hr; cases hr; exact .date h1 h2
  | timedelta h1 h2 => intro t' hr; cases hr; exact .timedelta h1 h2
  | pattern h1 h2 h3 => intro t' hr; cases hr; exact .pattern h1 h2 h3
  | bare => intro t' hr; cases hr; exact .bare
  | user h1 => exact absurd (pick_installed h1) (not_installed hd _)
  | asked h1 => exact absurd (pick_installed h1) (not_installed hd _)
  | member hm _ ih =>
    intro t' hr
    obtain ⟨ts, l, rfl, e1, e2, e3⟩ := hr.symm.union_right
    rw [e2] at hm
    obtain ⟨q, hq, rfl⟩ := List.mem_map.1 hm
    exact .member (by rw [e1]; exact List.mem_map_of_mem hq) (ih _ (e3 q hq).symm)
  | newtype _ ih => intro t' hr; obtain ⟨u, rfl, h⟩ := hr.symm.newtype_right; exact .newtype (ih _ h.symm)
  | fref h _ ih =>
    intro t' hr; cases hr
    obtain ⟨u', h1, h2⟩ := hF _ _ h
    exact .fref h1 (ih _ h2)
  | key h1 h2 _ ih => intro t' hr; obtain ⟨k', u', rfl, h4, _⟩ := hr.symm.dict_right; exact .key h1 h2 (ih _ h4.symm)
  | value h1 h2 _ ih => intro t' hr; obtain ⟨k', u', rfl, _, h4⟩ := hr.symm.dict_right; exact .value h1 h2 (ih _ h4.symm)
  | @field v c kvs p f u h1 h2 h3 h4 _ ih =>
    intro t' hr; cases hr
    obtain ⟨f', h5, h6⟩ := (hw.fields c).mem_left h3
    obtain ⟨u, h7, h8⟩ := h6.fieldTy h4
    exact .field h1 h2 h5 (by rw [hk]; exact h7) (ih _ h8)

theorem DictSafe.reordered {k k' u u' : Ty} (h : DictSafe C k u) (hk : Reordered k k') (hu : Reordered u u') : DictSafe C k' u' := by
  rcases h with h | rfl | ⟨h1, h2, h3, h4⟩
  · exact Or.inl (hu.isBasic ▸ h)
  · cases hb : C.isBasic k with
    | false => exact Or.inl (by rw [← hu.isBasic]; exact hb)
    | true =>
      cases k <;> simp [Config.isBasic] at hb
      rw [hk.prim_left, hu.prim_left]; exact Or.inr (Or.inl rfl)
  · refine Or.inr (Or.inr ⟨by rw [← hk.isBasic]; exact h1, by rw [← hu.isBasic]; exact h2, ?_, ?_⟩)
    · rintro rfl; exact h3 hk.prim_right
    · rintro rfl; exact h4 hu.prim_right

/-- What forward references mean: the same, up to the order of the members of unions. -/
theorem means_reordered (hw : W.Reorders cls) {s : LState} {t t' : Ty} (hr : Reordered t t') (hidx : aget s.idx t = none ↔ aget s.idx t' = none) (n : String) (u : Ty)
    (h : Means (namesIn W s t) n u) : ∃ u', Means (namesIn (W.retype cls) s t') n u' ∧ Reordered u u' := by
  obtain ⟨f, h1, h2⟩ := h
  unfold namesIn at h1
  unfold Means namesIn
  cases hfr : s.frefs with
  | none => rw [hfr] at h1; cases h1
  | some fr =>
    rw [hfr] at h1
    simp only [Option.some.injEq] at h1
    subst h1
    dsimp only at h2 ⊢
    cases ha : aget fr n with
    | some w =>
      rw [ha] at h2; cases h2
      exact ⟨u, ⟨_, rfl, by simp [ha]⟩, .refl _⟩
    | none =>
      rw [ha] at h2
      dsimp only at h2
      by_cases hc : aget s.idx t = none ∧ W.tyName t = some n
      · rw [if_pos hc] at h2; cases h2
        refine ⟨t', ⟨_, rfl, ?_⟩, hr⟩
        simp only [ha]
        rw [if_pos]
        exact ⟨hidx.1 hc.1, by rw [← hc.2]; exact (hw.names _ _ hr).symm⟩
      · rw [if_neg hc] at h2; cases h2

section
variable (hd : C.Default) (hw : W.Reorders cls) {s : LState} {t t' : Ty} (hr : Reordered t t') (hidx : aget s.idx t = none ↔ aget s.idx t' = none)
  (hcls : ∀ n u, Meets W C s t (.fref n) → Meets W C s t u → W.tyName u = some n → ∃ c, u = .obj c)
include hd hw hr hidx

include hcls in
theorem Regular.reordered {v : Val} (h : Regular W C s v t) : Regular (W.retype cls) C s v t' where
  names n u' h1 h2 h3 := by
    obtain ⟨w, h4, h5⟩ := h1.reordered hd hw hr
    rw [h5.fref_right] at h4
    obtain ⟨u, h6, h7⟩ := h2.reordered hd hw hr
    have h8 : W.tyName u = some n := (hw.names _ _ h7).trans h3
    obtain ⟨c, rfl⟩ := hcls n u h4 h6 h8
    have h9 := h7.obj_left
    subst h9
    obtain ⟨u', h10, h11⟩ := means_reordered hw hr hidx n _ (h.names n _ h4 h6 h8)
    rw [h11.obj_left] at h10
    exact h10
  dicts kt vt h1 := by
    obtain ⟨w, h4, h5⟩ := h1.reordered hd hw hr
    obtain ⟨k', u', rfl, h6, h7⟩ := h5.dict_right
    exact (h.dicts _ _ h4).reordered h6 h7
  supported u h1 := by
    have : ∃ u0, Reordered u0 u ∧ ((∃ k, Meets W C s t (.coll k u0)) ∨ (∃ w, Meets W C s t (.dict u0 w)) ∨ ∃ w, Meets W C s t (.dict w u0)) := by
      rcases h1 with ⟨k, h1⟩ | ⟨k, h1⟩ | ⟨k, h1⟩
      · obtain ⟨w, h4, h5⟩ := h1.reordered hd hw hr
        obtain ⟨u', rfl, h6⟩ := h5.coll_right
        exact ⟨u', h6, Or.inl ⟨_, h4⟩⟩
      · obtain ⟨w, h4, h5⟩ := h1.reordered hd hw hr
        obtain ⟨k', u', rfl, h6, h7⟩ := h5.dict_right
        exact ⟨k', h6, Or.inr (Or.inl ⟨_, h4⟩)⟩
      · obtain ⟨w, h4, h5⟩ := h1.reordered hd hw hr
        obtain ⟨k', u', rfl, h6, h7⟩ := h5.dict_right
        exact ⟨u', h7, Or.inr (Or.inr ⟨_, h4⟩)⟩
    obtain ⟨u0, h2, h3⟩ := this
    obtain ⟨hh, h4⟩ := h.supported u0 h3
    exact h4.reordered hw h2
  ints kt vt h1 h2 := by
    obtain ⟨w, h4, h5⟩ := h1.reordered hd hw hr
    obtain ⟨k', u', rfl, h6, h7⟩ := h5.dict_right
    refine h.ints _ _ h4 (h2.imp ?_ ?_)
    · rintro rfl; exact h6.prim_right
    · rintro rfl; exact h7.prim_right
  classes c h1 := by
    obtain ⟨w, h4, h5⟩ := h1.reordered hd hw hr
    rw [h5.obj_right] at h4
    obtain ⟨h6, h7⟩ := h.classes c h4
    have hk : ((W.retype cls).cls c).kind = (W.cls c).kind := hw.kind c
    refine ⟨?_, ?_⟩
    · rw [show ((W.retype cls).cls c).fields.map (·.name) = _ from (hw.fields c).map_eq (fun _ _ h => h.name)]; exact h6
    · rw [hk, show ((W.retype cls).cls c).fields.map (extName C (W.cls c).kind) = _ from (hw.fields c).map_eq (fun _ _ h => h.ext _)]; exact h7
  converters c h1 h2 f' hf' := by
    obtain ⟨w, h4, h5⟩ := h1.reordered hd hw hr
    rw [h5.obj_right] at h4
    have hk : ((W.retype cls).cls c).kind = (W.cls c).kind := hw.kind c
    rw [hk] at h2
    obtain ⟨f, h6, h7⟩ := (hw.fields c).mem_right hf'
    obtain ⟨u, h8⟩ := h.converters c h4 h2 f h6
    obtain ⟨u', h9, _⟩ := h7.fieldTy h8
    exact ⟨u', h9⟩
  namespaces c h1 h2 := by
    obtain ⟨w, h4, h5⟩ := h1.reordered hd hw hr
    rw [h5.obj_right] at h4
    have hk : ((W.retype cls).cls c).kind = (W.cls c).kind := hw.kind c
    obtain ⟨f', hf', h3⟩ := h2
    obtain ⟨f, h6, u, rfl, _⟩ := (hw.fields c).mem_right hf'
    rw [hk] at h3
    exact h.namespaces c h4 ⟨f, h6, h3⟩
  unions ts x h1 h2 h3 := by
    obtain ⟨w, h4, h5⟩ := h1.reordered hd hw hr
    have h6 := Culprit.reordered (W := W.retype cls) (cls := W.cls) hd hw.symm (F' := Known W s) (fun n u hu => ⟨u, hu, .refl u⟩) h3 _ h5.symm
    obtain ⟨ts', l, rfl, _⟩ := h5.union_right
    exact h.unions _ x h4 h2 h6

include hcls in
theorem Consistent.reordered {v : Val} (h : Consistent W C s v t) : Consistent (W.retype cls) C s v t' where
  toRegular := h.toRegular.reordered hd hw hr hidx hcls
  sets k u h1 h2 x a b h3 h4 h5 := by
    have hF := means_reordered (W := W.retype cls) (cls := W.cls) hw.symm hr.symm hidx.symm
    obtain ⟨w, h6, h7⟩ := h1.reordered hd hw hr
    obtain ⟨u', rfl, h8⟩ := h7.coll_right
    rw [hw.hash]
    exact h.sets _ _ h6 h2 x a b h3 (h4.reorder (cls := W.cls) hw.symm hF h8.symm) (h5.reorder (cls := W.cls) hw.symm hF h8.symm)
  keys kt vt h1 x a b h3 h4 h5 := by
    have hF := means_reordered (W := W.retype cls) (cls := W.cls) hw.symm hr.symm hidx.symm
    obtain ⟨w, h6, h7⟩ := h1.reordered hd hw hr
    obtain ⟨k', u', rfl, h8, _⟩ := h7.dict_right
    rw [hw.hash]
    exact h.keys _ _ h6 x a b h3 (h4.reorder (cls := W.cls) hw.symm hF h8.symm) (h5.reorder (cls := W.cls) hw.symm hF h8.symm)
  enums e u h1 h2 x a b m h3 h4 h5 h6 := by
    have hF := means_reordered (W := W.retype cls) (cls := W.cls) hw.symm hr.symm hidx.symm
    obtain ⟨w, h7, h8⟩ := h1.reordered hd hw hr
    rw [h8.enum_right] at h7
    exact h.enums e u h7 h2 x a b m h3 (h4.reorder (cls := W.cls) hw.symm hF _ (.refl _)) (h5.reorder (cls := W.cls) hw.symm hF _ (.refl _)) h6
  inits c h1 := by
    have hF := means_reordered (W := W.retype cls) (cls := W.cls) hw.symm hr.symm hidx.symm
    have hk : ((W.retype cls).cls c).kind = (W.cls c).kind := hw.kind c
    obtain ⟨w, h7, h8⟩ := h1.reordered hd hw hr
    rw [h8.obj_right] at h7
    refine (h.inits c h7).imp id (fun h2 f' hf' u' hu' x a b h3 h4 h5 => ?_)
    obtain ⟨f, h9, h10⟩ := (hw.fields c).mem_right hf'
    rw [hk] at hu'
    obtain ⟨u, h11, h12⟩ := h10.symm.fieldTy hu'
    exact h2 f h9 u h11 x a b h3 (h4.reorder (cls := W.cls) hw.symm hF _ h12) (h5.reorder (cls := W.cls) hw.symm hF _ h12)
end

theorem NotRequiredLaw.retype (hw : W.Reorders cls) (h : W.NotRequiredLaw) : (W.retype cls).NotRequiredLaw := by
  intro c f' hf' h1
  obtain ⟨f, h2, u, rfl, _⟩ := (hw.fields c).mem_right hf'
  exact h c f h2 h1

section
variable (hd : C.Default) (hW : W.NeverStops) (hl : W.Lawful) (hlaw : W.NotRequiredLaw) (hdbg : C.uniondebugconflict = false) (hw : W.Reorders cls)
  {s : LState} (hs : Reachable W C s) (hs' : Reachable (W.retype cls) C s) {v : Val} {t t' : Ty} (hr : Reordered t t')
  (hidx : aget s.idx t = none ↔ aget s.idx t' = none)
  (hcls : ∀ n u, Meets W C s t (.fref n) → Meets W C s t u → W.tyName u = some n → ∃ c, u = .obj c) (hv : KeysDistinct C v)
include hd hW hl hlaw hdbg hw hs hs' hr hidx hcls hv

/-- **C81** (partial). Writing the members of unions in another order, in the type and in the annotations of any class, does not change which data is
accepted: what is accepted with one order is not refused with the other one.  For new loaders, or loaders in the same state.  Missing: as in
`C74_refused_partial`; forward references denote classes. -/
theorem C81_accepts_partial (hc : Consistent W C s v t) {r : Val} {s1 s2 : LState} :
    (Loads W C s v t r s1 → ∀ e, ¬ Raises (W.retype cls) C s v t' e s2) ∧ (Loads (W.retype cls) C s v t' r s2 → ∀ e, ¬ Raises W C s v t e s1) := by
  have hW' : (W.retype cls).NeverStops := ⟨hW.1, hW.2, hW.3, hW.4⟩
  have hl' : (W.retype cls).Lawful := ⟨hl.1, hl.2, hl.3, hl.4⟩
  have hc' := hc.reordered hd hw hr hidx hcls
  refine ⟨fun h e he => ?_, fun h e he => ?_⟩
  · exact C74_refused_partial hd hW' hl' (NotRequiredLaw.retype hw hlaw) hdbg hs' hc' hv he r
      ((loads_converts hd hW hl hlaw hdbg hs hc hv h).reorder hw (means_reordered hw hr hidx) _ hr)
  · exact C74_refused_partial hd hW hl hlaw hdbg hs hc hv he r
      ((loads_converts hd hW' hl' (NotRequiredLaw.retype hw hlaw) hdbg hs' hc' hv h).reorder (W := W.retype cls) (cls := W.cls) hw.symm
        (means_reordered (W := W.retype cls) (cls := W.cls) hw.symm hr.symm hidx.symm) _ hr.symm)

/-- **C81** (partial). Nor does it change the result, when at most one member of a union can take the data it meets.  Missing: ambiguous unions
(`C81_order_counterexample`), and as in `C81_accepts_partial`. -/
theorem C81_result_partial (hreg : Regular W C s v t) (hu : Unambiguous W C s v t) {r1 r2 : Val} {s1 s2 : LState} (h1 : Loads W C s v t r1 s1)
    (h2 : Loads (W.retype cls) C s v t' r2 s2) : r1 = r2 := by
  have hW' : (W.retype cls).NeverStops := ⟨hW.1, hW.2, hW.3, hW.4⟩
  have hl' : (W.retype cls).Lawful := ⟨hl.1, hl.2, hl.3, hl.4⟩
  have hc := hu.consistent hv hreg
  have hc' := hc.reordered hd hw hr hidx hcls
  have h3 := loads_converts hd hW hl hlaw hdbg hs hc hv h1
  have h4 := (loads_converts hd hW' hl' (NotRequiredLaw.retype hw hlaw) hdbg hs' hc' hv h2).reorder (W := W.retype cls) (cls := W.cls) hw.symm
        (means_reordered (W := W.retype cls) (cls := W.cls) hw.symm hr.symm hidx.symm) _ hr.symm
  exact h3.unique hv hreg.classes hu .self .self _ h4
end

/-- The classes of the sample program with `next: Union[None, 'Node']` instead of `next: Union['Node', None]`. -/
def Sample.clsReordered (c : Nat) : ClassDef :=
  if c = 7 then
    { kind := .dataclass, name := "Node", fields := [ { name := "v", ty := .prim .int }, { name := "next", ty := .union [.prim .none, .fref "Node", .prim .none] } ] }
  else Sample.cls c

theorem Sample.reorders : Sample.W.Reorders Sample.clsReordered where
  kind c := by
    unfold Sample.clsReordered; split
    · rename_i h; subst h; rfl
    · rfl
  hashable c := by
    unfold Sample.clsReordered; split
    · rename_i h; subst h; rfl
    · rfl
  fields c := by
    unfold Sample.clsReordered; split
    · rename_i h; subst h
      refine .cons ⟨_, rfl, .refl _⟩ (.cons ⟨_, rfl, ?_⟩ .nil)
      exact .union (l := [(.fref "Node", .fref "Node"), (.prim .none, .prim .none)]) (by simp) (by intro u; simp; tauto) (by simp; exact ⟨.refl _, .refl _⟩)
    · exact Zip2.refl (fun f => ⟨f.ty, rfl, .refl _⟩) _
  names t t' h := by cases h <;> rfl

-- the hypotheses are met, whatever the data: both versions of the program load the same nodes
example (v : Val) (hv : KeysDistinct Sample.C v) (r1 r2 : Val) (s1 s2 : LState) (h1 : Loads Sample.W Sample.C (fresh []) v (.obj 7) r1 s1)
    (h2 : Loads (Sample.W.retype Sample.clsReordered) Sample.C (fresh []) v (.obj 7) r2 s2) : r1 = r2 :=
  C81_result_partial (show Sample.C.Default from rfl) Sample.neverStops Sample.lawful Sample.notRequiredLaw rfl Sample.reorders (.new (some []) []) (.new (some []) [])
    (.refl _) Iff.rfl (fun n u h _ hn => by
      have := Sample.meets_node h; simp at this; subst this; exact ⟨7, Sample.node_name hn⟩) hv (Sample.regular_node v) (Sample.unambiguous_node v) h1 h2

example (v : Val) (hv : KeysDistinct Sample.C v) (r1 : Val) (s1 s2 : LState) (h1 : Loads Sample.W Sample.C (fresh []) v (.obj 7) r1 s1) (e : Exc) :
    ¬ Raises (Sample.W.retype Sample.clsReordered) Sample.C (fresh []) v (.obj 7) e s2 :=
  (C81_accepts_partial (show Sample.C.Default from rfl) Sample.neverStops Sample.lawful Sample.notRequiredLaw rfl Sample.reorders (.new (some []) []) (.new (some []) [])
    (.refl _) Iff.rfl (fun n u h _ hn => by
      have := Sample.meets_node h; simp at this; subst this; exact ⟨7, Sample.node_name hn⟩) hv
    ((Sample.unambiguous_node v).consistent hv (Sample.regular_node v))).1 h1 e

example : (∃ r s1, Loads Sample.W Sample.C (fresh []) (.dict [(.str "v", .int 1), (.str "next", .dict [(.str "v", .int 2), (.str "next", .none)])]) (.obj 7) r s1) ∧
    ∃ r s1, Loads (Sample.W.retype Sample.clsReordered) Sample.C (fresh []) (.dict [(.str "v", .int 1), (.str "next", .dict [(.str "v", .int 2), (.str "next", .none)])]) (.obj 7) r s1 :=
  ⟨⟨_, _, 9, rfl⟩, ⟨_, _, 9, rfl⟩⟩

/-- **C81** Where two members take the data, the order decides: `[1]` is a list or a tuple. -/
theorem C81_order_counterexample : ∃ (W : World) (C : Config) (v : Val) (t t' : Ty) (r r' : Val), C.Default ∧ Reordered t t' ∧
    (∃ s', Loads W C (fresh []) v t r s') ∧ (∃ s', Loads W C (fresh []) v t' r' s') ∧ pyEq r r' = false :=
  ⟨Sample.W, Sample.C, .list [.int 1], .union [.coll .list (.prim .int), .coll .tuple (.prim .int)], .union [.coll .tuple (.prim .int), .coll .list (.prim .int)],
    .list [.int 1], .tuple [.int 1], rfl,
    .union (l := [(.coll .list (.prim .int), .coll .list (.prim .int)), (.coll .tuple (.prim .int), .coll .tuple (.prim .int))]) (by simp) (by simp [or_comm])
      (by simp; exact ⟨.refl _, .refl _⟩), ⟨_, 9, rfl⟩, ⟨_, 9, rfl⟩, rfl⟩

/-- **C81** Where a member fails with something else than a TypedloadException (`len()` of a number, finding 2), the order decides whether the data is accepted at all:
`load(5, Union[timedelta, Tuple[int, int]])` is five seconds, `load(5, Union[Tuple[int, int], timedelta])` raises AssertionError. -/
theorem C81_crash_counterexample : ∃ (W : World) (C : Config) (v : Val) (t t' : Ty) (r : Val) (e : Exc), C.Default ∧ Reordered t t' ∧
    (∃ s', Loads W C (fresh []) v t r s') ∧ (∃ s', Raises W C (fresh []) v t' e s') ∧ e.isTL = false :=
  ⟨Sample.W, Sample.C, .int 5, .union [.timedelta, .tuple [.prim .int, .prim .int]], .union [.tuple [.prim .int, .prim .int], .timedelta], _, _, rfl,
    .union (l := [(.timedelta, .timedelta), (.tuple [.prim .int, .prim .int], .tuple [.prim .int, .prim .int])]) (by simp) (by simp [or_comm])
      (by simp; exact ⟨.refl _, .refl _⟩), ⟨_, 9, rfl⟩, ⟨_, 9, rfl⟩, rfl⟩

end TL
