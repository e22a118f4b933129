import Verif.Lemmas.ShuffleObj
import Verif.Props.Terminates
/-!
# Loading the same data in another order: all handlers
-/

namespace TL

set_option linter.unusedSectionVars false

variable {W : World} {C : Config} {Γ : Env} {v0 v1 : Val} {t0 : Ty}

/-- Without renamed fields an argparse namespace is loaded as the dictionary of its attributes. -/
theorem objMangled_ns {rec : Ref.Rec} {info : ObjInfo} {c : Nat} (he : C.dictequivalence = true) (ht : info.transforms = []) (fs : List (String × Val)) :
    Ref.objMangled W C rec info (.ns fs) c = Ref.objMangled W C rec info (.dict (fs.map (fun p => (.str p.1, p.2)))) c := by
  have h : ∀ v : Val, ofL (mangleOrRaise C [] v (.obj c)) = (Pure.pure v : R Val) := by
    intro v
    funext s
    simp only [ofL, mangleOrRaise, mangle_names, List.isEmpty_nil, if_true]
    rfl
  unfold Ref.objMangled
  rw [ht, h, h]
  show Ref.objloader W C rec info (.ns fs) c = Ref.objloader W C rec info (.dict _) c
  simp only [Ref.objloader, objItems, he, if_true]

theorem objMangled_nsErr {info : ObjInfo} {c : Nat} (ht : info.transforms ≠ []) (fs : List (String × Val)) :
    ∃ e, Er (fun n => Ref.objMangled W C (Ref.run W C Γ n) info (.ns fs) c) e := by
  unfold Ref.objMangled
  rcases ofL_mangle (C := C) info.transforms (.ns fs) (.obj c) with ⟨v1, hm1, _⟩ | ⟨_, e, _, he⟩
  · rcases mangle_names_ok hm1 with ⟨h, _⟩ | ⟨_, _, h, _⟩
    · exact absurd h ht
    · cases h
  · rw [he]
    exact ⟨e, 0, fun n _ => rfl⟩

theorem zip_refl (l : List (Val × Val)) : ShufItems l l := by
  induction l with
  | nil => exact .nil
  | cons _ _ ih => exact .cons ⟨rfl, .same⟩ ih

section
variable {x x' : Val} {t : Ty}
  (hrec : ∀ h y y' u, SubCall W C (Means Γ) x t y u → Reaches W C Γ v0 t0 y u → Reaches W C Γ v1 t0 y' u → Shuf y y' → pick W C u = .ok h →
    Agree Shuf (fun n => Ref.run W C Γ n h y u) (fun n => Ref.run W C Γ n h y' u))
  (hx : Reaches W C Γ v0 t0 x t) (hx' : Reaches W C Γ v1 t0 x' t) (hs : Shuf x x')
include hrec hx hx' hs

/-- Classes. -/
theorem Agree.objload {c : Nat} (ht : t = .obj c) (hw : WFNames C (W.cls c).kind (W.cls c).fields) (hinit : OrderlessInit W c)
    (hnd : ∀ kvs, DictData C x kvs → (strKeys kvs).Nodup) :
    Agree Shuf (fun n => Ref.step W C Γ (Ref.run W C Γ n) (objHandler (W.cls c).kind) x t) (fun n => Ref.step W C Γ (Ref.run W C Γ n) (objHandler (W.cls c).kind) x' t) := by
  subst ht
  by_cases hh : (W.cls c).kind = .attrs → ∀ f ∈ (W.cls c).fields, ∃ t, FieldTy .attrs f t
  rotate_left
  · have hk : (W.cls c).kind = .attrs := by
      apply Classical.byContradiction
      intro h; exact hh (fun h' => absurd h' h)
    have : ∃ e, attrHints (W.cls c).fields = .error e := by
      cases ha : attrHints (W.cls c).fields with
      | error e => exact ⟨e, rfl⟩
      | ok r =>
        obtain ⟨h1, h2⟩ := attrHints_spec _ _ ha
        refine absurd (fun _ f hf => ?_) hh
        have : f.name ∈ r.map (·.1) := by rw [h2]; exact List.mem_map.2 ⟨f, hf, rfl⟩
        obtain ⟨⟨n, u⟩, hm, hn⟩ := List.mem_map.1 this
        obtain ⟨g, hg, hgn, hty⟩ := h1 n u hm
        have := nodup_map_inj hw.names hg hf (hgn.trans hn)
        subst this
        exact ⟨u, hty⟩
    obtain ⟨e, he⟩ := this
    have : ∀ n v, Ref.step W C Γ (Ref.run W C Γ n) (objHandler (W.cls c).kind) v (.obj c) = M.throw (.plain e) := by
      intro n v
      rw [hk]
      show Ref.attrload W C (Ref.run W C Γ n) v (.obj c) = _
      simp only [Ref.attrload, hk, if_true, he]
    simp only [this]
    exact Agree.throw
  obtain ⟨info, hi, hnec, hst⟩ := ref_classHandler (W := W) (C := C) Γ c hh
  simp only [hst]
  by_cases hdd : ∃ kvs, DictData C x kvs
  rotate_left
  · exact Or.inr ⟨objMangled_notDict hdd info c, objMangled_notDict (hs.not_dictData hdd) info c⟩
  obtain ⟨kvs, hdd⟩ := hdd
  replace hnd := hnd kvs hdd
  rcases hdd with rfl | ⟨fs, rfl, he, hkv⟩
  · obtain ⟨mid, kvs', hx1, hz, hp⟩ := hs.dictData (C := C) (Or.inl rfl)
    have hx1 : x' = .dict kvs' := by
      rcases hx1 with h | ⟨fs, h, _⟩
      · exact h
      · subst h; cases hs
    subst hx1
    refine Agree.objDict hi hw hnec hinit hz hp hnd (fun f hf ft hty a b ha hb hab h hpk => ?_)
    exact hrec h a b ft (.field (Or.inl ⟨_, _, rfl, ha⟩) hf hty) (.field hx (Or.inl rfl) hf (ext_keyOf hf) ha hty)
      (.field hx' (Or.inl rfl) hf (ext_keyOf hf) hb hty) hab hpk
  · have hxx : x' = .ns fs := by cases hs; rfl
    subst hxx
    by_cases htr : info.transforms = []
    rotate_left
    · exact Or.inr ⟨objMangled_nsErr htr fs, objMangled_nsErr htr fs⟩
    simp only [objMangled_ns he htr]
    refine Agree.objDict hi hw hnec hinit (zip_refl _) (List.Perm.refl _) (by rw [hkv] at hnd; exact hnd) (fun f hf ft hty a b ha hb hab h hpk => ?_)
    have hin : ∀ {y : Val}, (.str (extName C (W.cls c).kind f), y) ∈ fs.map (fun p => ((.str p.1 : Val), p.2)) → (extName C (W.cls c).kind f, y) ∈ fs := by
      intro y hy
      obtain ⟨⟨n, z⟩, hm, he⟩ := List.mem_map.1 hy
      cases he; exact hm
    exact hrec h a b ft (.field (Or.inr ⟨_, _, rfl, hin ha⟩) hf hty) (.field hx (Or.inr ⟨fs, rfl, he, rfl⟩) hf (ext_keyOf hf) ha hty)
      (.field hx' (Or.inr ⟨fs, rfl, he, rfl⟩) hf (ext_keyOf hf) hb hty) hab hpk

end

/-- What is asked of the data besides `Shuf`. -/
structure Unordered (W : World) (C : Config) (Γ : Env) (v v' : Val) (t : Ty) : Prop where
  calm : NoCrash W C Γ v t
  calm' : NoCrash W C Γ v' t
  apart : KeysApart W C Γ v t
  calls : ∀ x x' u, Reaches W C Γ v t x u → Reaches W C Γ v' t x' u → Shuf x x' → Orderless W C u x x'
  init : ∀ x c, Reaches W C Γ v t x (.obj c) → OrderlessInit W c
  names : ∀ x c, Reaches W C Γ v t x (.obj c) → WFNames C (W.cls c).kind (W.cls c).fields
  keys : ∀ x u kvs, Reaches W C Γ v t x u → DictData C x kvs → (strKeys kvs).Nodup

theorem Agree.stepOrder (hd : C.Default) (hu : Unordered W C Γ v0 v1 t0) {x x' : Val} {t : Ty} {h : Handler}
    (hrec : ∀ h y y' u, SubCall W C (Means Γ) x t y u → Reaches W C Γ v0 t0 y u → Reaches W C Γ v1 t0 y' u → Shuf y y' → pick W C u = .ok h →
      Agree Shuf (fun n => Ref.run W C Γ n h y u) (fun n => Ref.run W C Γ n h y' u))
    (hx : Reaches W C Γ v0 t0 x t) (hx' : Reaches W C Γ v1 t0 x' t) (hs : Shuf x x') (hp : pick W C t = .ok h) :
    Agree Shuf (fun n => Ref.step W C Γ (Ref.run W C Γ n) h x t) (fun n => Ref.step W C Γ (Ref.run W C Γ n) h x' t) := by
  have hor := hu.calls x x' t hx hx' hs
  cases t with
  | prim p =>
    by_cases hn : p = .none
    · subst hn; rw [pick_none hd] at hp; cases hp
      exact Agree.noneload hs
    · by_cases hb : p ∈ C.basictypes
      · rw [pick_basic hd hb hn] at hp; cases hp
        exact Agree.basicload hs hor
      · rw [pick_prim_none hd hb hn] at hp; cases hp
  | union ts => rw [pick_union hd] at hp; cases hp; exact Agree.unionload hrec hx hx' hs hu.calm hu.calm' hd (fun kvs hk => hu.keys _ _ kvs hx (Or.inl hk))
  | enum e => rw [pick_enum hd] at hp; cases hp; exact Agree.enumload hrec hx hx' hs (hu.calls x x' _ hx hx' hs)
  | tuple ts => rw [pick_tuple hd] at hp; cases hp; exact Agree.tupleload hrec hx hx' hs hu.calm hu.calm'
  | coll k t =>
    rw [pick_coll hd] at hp; cases hp
    cases k with
    | tuple => exact Agree.tupleload hrec hx hx' hs hu.calm hu.calm'
    | _ => exact Agree.iterload hrec hx hx' hs hu.calm hu.calm'
  | dict k v => rw [pick_dict hd] at hp; cases hp; exact Agree.dictload hrec hx hx' hs hu.calm hu.calm' hu.apart
  | obj c =>
    rw [pick_obj hd] at hp; cases hp
    exact Agree.objload hrec hx hx' hs rfl (hu.names _ _ hx) (hu.init _ _ hx) (fun kvs hk => hu.keys _ _ kvs hx hk)
  | fref n => rw [pick_fref hd] at hp; cases hp; exact Agree.forwardrefload hrec hx hx' hs
  | lit vs => rw [pick_lit hd] at hp; cases hp; exact Agree.literalload hs
  | dt k => rw [pick_dt hd] at hp; cases hp; exact Agree.datetimeload hor
  | pattern a => rw [pick_pattern hd] at hp; cases hp; exact Agree.patternload hs
  | timedelta => rw [pick_timedelta hd] at hp; cases hp; exact Agree.timedeltaload hs
  | strcons c =>
    by_cases hc : c ∈ C.strconstructed
    · rw [pick_strcons hd hc] at hp; cases hp; exact Agree.strconstructload hor
    · rw [pick_strcons_none hd hc] at hp; cases hp
  | any => rw [pick_any hd] at hp; cases hp; exact Agree.anyload hs
  | newtype n t => rw [pick_newtype hd] at hp; cases hp; exact Agree.newtypeload hrec hx hx' hs
  | «opaque» c => rw [pick_opaque hd] at hp; cases hp
  | bare g =>
    rw [pick_bare hd] at hp
    repeat' split at hp
    all_goals cases hp
    · exact Agree.tupleload hrec hx hx' hs hu.calm hu.calm'
    · exact Agree.iterload (k := .list) hrec hx hx' hs hu.calm hu.calm'
    · exact Agree.dictload hrec hx hx' hs hu.calm hu.calm' hu.apart
    · exact Agree.iterload (k := .set) hrec hx hx' hs hu.calm hu.calm'
    · exact Agree.iterload (k := .frozenset) hrec hx hx' hs hu.calm hu.calm'

/-- All handlers, by induction on the nesting of the calls. -/
theorem Agree.runOrder (hd : C.Default) (hu : Unordered W C Γ v0 v1 t0) {p : Val × Ty}
    (hacc : Acc (fun q p : Val × Ty => SubCall W C (Means Γ) p.1 p.2 q.1 q.2) p) : ∀ x' h, Reaches W C Γ v0 t0 p.1 p.2 → Reaches W C Γ v1 t0 x' p.2 → Shuf p.1 x' →
      pick W C p.2 = .ok h → Agree Shuf (fun n => Ref.run W C Γ n h p.1 p.2) (fun n => Ref.run W C Γ n h x' p.2) := by
  induction hacc with
  | intro p _ ih =>
    intro x' h hx hx' hs hp
    exact Agree.step (Agree.stepOrder hd hu (fun h y y' u hc h1 h2 h3 h4 => ih (y, u) hc y' h h1 h2 h3 h4) hx hx' hs hp)

/-! ## The data met in the other order -/

theorem Zip2.flip {α β : Type} {R : α → β → Prop} {as : List α} {bs : List β} (h : Zip2 R as bs) : Zip2 (fun b a => R a b) bs as := by
  induction h with
  | nil => exact .nil
  | cons h _ ih => exact .cons h ih

theorem Shuf.symm {a b : Val} (h : Shuf a b) : Shuf b a := by
  refine Shuf.ind (P := fun a b => Shuf b a) (fun _ => .same) (fun k xs ys h => .of_zip h.flip) ?_ ?_ ?_ h
  · intro kvs mid kvs' h hp
    obtain ⟨ms, h1, h2⟩ := Zip2.perm hp h.flip
    exact Shuf.of_items (h1.mono (fun p q h => ⟨h.1.symm, h.2⟩)) h2.symm
  · intro c fs fs' h; exact .of_nt (h.flip.mono (fun p q h => ⟨h.1.symm, h.2⟩))
  · intro c fs fs' h; exact .of_inst (h.flip.mono (fun p q h => ⟨h.1.symm, h.2⟩))

theorem zip_zip {α β γ : Type} {R : α → β → Prop} {as : List α} {bs : List β} (h : Zip2 R as bs) : ∀ (cs : List γ) (a : α) (c : γ), (a, c) ∈ as.zip cs →
    ∃ b, (b, c) ∈ bs.zip cs ∧ R a b := by
  induction h with
  | nil => intro cs a c h; simp at h
  | cons hr _ ih =>
    intro cs a c hm
    cases cs with
    | nil => simp at hm
    | cons c' cs =>
      simp only [List.zip_cons_cons, List.mem_cons, Prod.mk.injEq] at hm ⊢
      rcases hm with ⟨rfl, rfl⟩ | hm
      · exact ⟨_, Or.inl ⟨rfl, rfl⟩, hr⟩
      · obtain ⟨b, h1, h2⟩ := ih cs a c hm
        exact ⟨b, Or.inr h1, h2⟩

theorem Shuf.item {a b : Val} (h : Shuf a b) {kvs : List (Val × Val)} (hd : DictData C a kvs) {p : Val × Val} (hp : p ∈ kvs) :
    ∃ kvs' q, DictData C b kvs' ∧ q ∈ kvs' ∧ p.1 = q.1 ∧ Shuf p.2 q.2 := by
  obtain ⟨mid, kvs', h1, h2, h3⟩ := h.dictData hd
  obtain ⟨q, hq, h4, h5⟩ := h2.mem_left hp
  exact ⟨kvs', q, h1, h3.subset hq, h4, h5⟩

theorem Reaches.shuf {v v' : Val} {t : Ty} (hvv : Shuf v v') {x : Val} {u : Ty} (h : Reaches W C Γ v t x u) : ∃ x', Reaches W C Γ v' t x' u ∧ Shuf x x' := by
  induction h with
  | self => exact ⟨v', .self, hvv⟩
  | elem _ h2 h3 h4 ih =>
    obtain ⟨w', h5, h6⟩ := ih
    rcases h6.pyIter h2 with ⟨h7, _⟩ | ⟨xs, ys, h7, h8, hz⟩
    · rw [h3] at h7; cases h7
    · rw [h3] at h7; cases h7
      obtain ⟨y, hy, hs⟩ := hz.mem_left h4
      exact ⟨y, .elem h5 (by rw [← h6.isDict]; exact h2) h8 hy, hs⟩
  | item _ h2 h3 h4 ih =>
    obtain ⟨w', h5, h6⟩ := ih
    rcases h6.pyIter h2 with ⟨h7, _⟩ | ⟨xs, ys, h7, h8, hz⟩
    · rw [h3] at h7; cases h7
    · rw [h3] at h7; cases h7
      obtain ⟨y, hy, hs⟩ := zip_zip hz _ _ _ h4
      exact ⟨y, .item h5 (by rw [← h6.isDict]; exact h2) h8 hy, hs⟩
  | key _ h2 h3 ih =>
    obtain ⟨w', h5, h6⟩ := ih
    obtain ⟨kvs', q, h7, h8, h9, _⟩ := h6.item h2 h3
    exact ⟨q.1, .key h5 h7 h8, h9 ▸ .same⟩
  | val _ h2 h3 ih =>
    obtain ⟨w', h5, h6⟩ := ih
    obtain ⟨kvs', q, h7, h8, _, h9⟩ := h6.item h2 h3
    exact ⟨q.2, .val h5 h7 h8, h9⟩
  | member _ h2 ih => obtain ⟨w', h5, h6⟩ := ih; exact ⟨w', .member h5 h2, h6⟩
  | newtype _ ih => obtain ⟨w', h5, h6⟩ := ih; exact ⟨w', .newtype h5, h6⟩
  | hint _ h2 ih => obtain ⟨w', h5, h6⟩ := ih; exact ⟨w', .hint h5 h2, h6⟩
  | field _ h2 h3 h4 h5 h6 ih =>
    obtain ⟨w', h7, h8⟩ := ih
    obtain ⟨kvs', ⟨k, y⟩, h9, h10, h11, h12⟩ := h8.item h2 h5
    dsimp only at h11; subst h11
    exact ⟨y, .field h7 h9 h3 h4 h10 h6, h12⟩
  | fref f _ h2 h3 ih => obtain ⟨w', h5, h6⟩ := ih; exact ⟨w', .fref f h5 h2 h3, h6⟩

theorem Steady.shuf {v v' : Val} {t : Ty} (h : Steady W C Γ v t) (hvv : Shuf v v') : Steady W C Γ v' t where
  unnamed := h.unnamed
  dictSafe := h.dictSafe
  dictColl := h.dictColl
  intKeys := by
    intro d kvs w hr hd p hp b he
    obtain ⟨x, h1, h2⟩ := hr.shuf hvv.symm
    obtain ⟨kvs', q, h3, h4, h5, _⟩ := h2.item hd hp
    exact h.intKeys x kvs' w h1 h3 q h4 b (by rw [← h5, he])
  intVals := by
    intro d kvs w hr hd p hp b he
    obtain ⟨x, h1, h2⟩ := hr.shuf hvv.symm
    obtain ⟨kvs', q, h3, h4, _, h5⟩ := h2.item hd hp
    refine h.intVals x kvs' w h1 h3 q h4 b ?_
    rw [he] at h5
    generalize q.2 = z at h5
    cases h5; rfl

end TL
