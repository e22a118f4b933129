import Verif.Lemmas.ShuffleLoop
import Verif.Props.UnionFresh
/-!
# Loading the same data in another order: handlers other than those of classes
-/

namespace TL

set_option linter.unusedSectionVars false

variable {W : World} {C : Config} {Γ : Env} {v0 v1 : Val} {t0 : Ty}

/-- What a key or a value of a dictionary becomes. -/
def Becomes (W : World) (C : Config) (Γ : Env) (x : Val) (u : Ty) (y : Val) : Prop := (BasicInstance C u x ∧ y = x) ∨ Yields W C Γ x u y

/-- What forward references mean. -/
def Means (Γ : Env) (n : String) (u : Ty) : Prop := ∃ f, Γ = some f ∧ f n = some u

/-- No exception passes through a union or ends a list early: the handler of a member of a union raises nothing but the exceptions of typedload, and
the handler of the elements of a collection raises no StopIteration. -/
structure NoCrash (W : World) (C : Config) (Γ : Env) (v : Val) (t : Ty) : Prop where
  member : ∀ x us u e, Reaches W C Γ v t x (.union us) → u ∈ us → Declines W C Γ x u e → e.isTL = true
  elem : ∀ w k u xs x e, Reaches W C Γ v t w (.coll k u) → w.isDict = false → pyIter w = some xs → x ∈ xs → Declines W C Γ x u e →
    e.cls ≠ .stopIteration

/-- Different keys of a dictionary remain different. -/
def KeysApart (W : World) (C : Config) (Γ : Env) (v : Val) (t : Ty) : Prop :=
  ∀ w kvs k u, Reaches W C Γ v t w (.dict k u) → DictData C w kvs →
    kvs.Pairwise (fun p q => ∀ a b, Becomes W C Γ p.1 k a → Becomes W C Γ q.1 k b → pyEq a b = false ∧ pyEq b a = false)

theorem Ok.bind_inv {α β : Type} {m : Nat → R α} {f : Nat → α → R β} {b : β} (h : Ok (fun n => m n >>= f n) b) (ht : (∃ a, Ok m a) ∨ ∃ e, Er m e) :
    ∃ a, Ok m a ∧ Ok (fun n => f n a) b := by
  rcases ht with ⟨a, ha⟩ | ⟨e, he⟩
  · refine ⟨a, ha, ?_⟩
    obtain ⟨N, ha⟩ := ha
    obtain ⟨K, h⟩ := h
    refine ⟨max N K, fun n hn => ?_⟩
    have h1 := h n (by omega)
    simp only [M.bind_apply, ha n (by omega)] at h1
    exact h1
  · exact (Ok.not_er h (Er.bind1 he)).elim

theorem Agree.left_total {α β : Type} {Q : α → β → Prop} {m : Nat → R α} {m' : Nat → R β} (h : Agree Q m m') : (∃ a, Ok m a) ∨ ∃ e, Er m e := by
  rcases h with ⟨a, _, h, _⟩ | ⟨h, _⟩
  · exact Or.inl ⟨a, h⟩
  · exact Or.inr h

theorem Zip2.both {α β : Type} {R S : α → β → Prop} {as : List α} {bs : List β} (h : Zip2 R as bs) (hRS : ∀ a b, a ∈ as → b ∈ bs → R a b → S a b) : Zip2 S as bs := by
  induction h with
  | nil => exact .nil
  | cons hr _ ih => exact .cons (hRS _ _ (by simp) (by simp) hr) (ih (fun a b ha hb => hRS a b (by simp [ha]) (by simp [hb])))

theorem zip_setAdd {acc acc' : List Val} (ha : Zip2 Shuf acc acc') {y y' : Val} (hy : Shuf y y') : Zip2 Shuf (setAdd acc y) (setAdd acc' y') := by
  unfold setAdd
  rw [pyIn_zip hy ha]
  split
  · exact ha
  · exact ha.append (.cons hy .nil)

section
variable {x x' : Val} {t : Ty}
  (hrec : ∀ h y y' u, SubCall W C (Means Γ) x t y u → Reaches W C Γ v0 t0 y u → Reaches W C Γ v1 t0 y' u → Shuf y y' → pick W C u = .ok h →
    Agree Shuf (fun n => Ref.run W C Γ n h y u) (fun n => Ref.run W C Γ n h y' u))
  (hx : Reaches W C Γ v0 t0 x t) (hx' : Reaches W C Γ v1 t0 x' t) (hs : Shuf x x')
  (hc : NoCrash W C Γ v0 t0) (hc' : NoCrash W C Γ v1 t0)
include hrec hx hx' hs hc hc'

omit hx hx' hc hc' hs in
theorem Agree.subLoad {y y' : Val} {u : Ty} {a a' : Option Annotation} (h1 : SubCall W C (Means Γ) x t y u) (h2 : Reaches W C Γ v0 t0 y u)
    (h3 : Reaches W C Γ v1 t0 y' u) (h4 : Shuf y y') :
    Agree Shuf (fun n => Ref.loadWith W C (Ref.run W C Γ n) y u a) (fun n => Ref.loadWith W C (Ref.run W C Γ n) y' u a') :=
  Agree.loadWith (fun h hp => hrec h y y' u h1 h2 h3 h4 hp)

omit hrec hx hx' hs hc hc' in
theorem iterElem_cases (et : Ty) (h : Handler) {y y' : Val} (hy : Shuf y y') : (y = y' ∧ ∀ rec : Ref.Rec, Ref.iterElem C rec h et y = Pure.pure y) ∨
    ∀ rec : Ref.Rec, Ref.iterElem C rec h et y = rec h y et ∧ Ref.iterElem C rec h et y' = rec h y' et := by
  cases et with
  | prim p =>
    simp only [Ref.iterElem]
    cases hb : C.isBasic (.prim p) with
    | false => right; intro rec; simp
    | true =>
      cases hi : isInst p y with
      | false => right; intro rec; rw [← hy.isInst p, hi]; simp
      | true =>
        left
        refine ⟨?_, fun rec => by simp⟩
        cases y <;> simp [isInst] at hi <;> cases hy <;> rfl
  | union ts =>
    simp only [Ref.iterElem]
    cases hb : ts.all C.isBasic with
    | false => right; intro rec; simp
    | true =>
      by_cases hi : typeOf y ∈ ts
      · left
        have := List.all_eq_true.1 hb _ hi
        refine ⟨?_, fun rec => by simp [hi]⟩
        cases hp : typeOf y with
        | prim p => exact hy.basic hp
        | _ => rw [hp] at this; simp [Config.isBasic] at this
      · right; intro rec; rw [← hy.typeOf]; simp [hi]
  | _ => right; intro rec; exact ⟨rfl, rfl⟩

omit hrec hx hx' hs hc hc' in
theorem Agree.iterElems {h : Handler} {k : SeqKind} {et : Ty} {v v' : Val} {ct ct' : Ty} {xs ys : List Val}
    (hz : Zip2 (fun y y' => Shuf y y' ∧ Agree Shuf (fun n => Ref.run W C Γ n h y et) (fun n => Ref.run W C Γ n h y' et) ∧
      (∀ e, Er (fun n => Ref.run W C Γ n h y et) e → e.cls ≠ .stopIteration) ∧ ∀ e, Er (fun n => Ref.run W C Γ n h y' et) e → e.cls ≠ .stopIteration) xs ys) :
    ∀ i i' acc acc', Zip2 Shuf acc acc' → Agree (Zip2 Shuf) (fun n => Ref.iterElems W C (Ref.run W C Γ n) h k et v ct xs i acc)
      (fun n => Ref.iterElems W C (Ref.run W C Γ n) h k et v' ct' ys i' acc') := by
  induction hz with
  | nil => intro i i' acc acc' ha; exact Agree.pure ha
  | @cons y y' ys ys' hy _ ih =>
    intro i i' acc acc' ha
    obtain ⟨hyy, hr, h1, h2⟩ := hy
    simp only [Ref.iterElems]
    have key : ∀ (z z' : Val), Shuf z z' → Agree (Zip2 Shuf)
        (fun n => match collAdd W k acc z with
          | .error c => M.throw (elemError v ct i (.plain c))
          | .ok acc' => Ref.iterElems W C (Ref.run W C Γ n) h k et v ct ys (i + 1) acc')
        (fun n => match collAdd W k acc' z' with
          | .error c => M.throw (elemError v' ct' i' (.plain c))
          | .ok acc' => Ref.iterElems W C (Ref.run W C Γ n) h k et v' ct' ys' (i' + 1) acc') := by
      intro z z' hz
      unfold collAdd
      rw [← hz.hash]
      cases k.isSet with
      | false => exact ih _ _ _ _ (ha.append (.cons hz .nil))
      | true =>
        cases W.hash z with
        | false => exact Agree.throw
        | true => exact ih _ _ _ _ (zip_setAdd ha hz)
    rcases iterElem_cases (C := C) et h hyy with ⟨rfl, he⟩ | he
    · simp only [he]
      exact key y y .same
    · simp only [he]
      refine Agree.handle hr key (fun e e' he he' => ?_)
      have e1 : (usesMap C et && e.cls == ExcClass.stopIteration) = false := by simp [h1 e he]
      have e2 : (usesMap C et && e'.cls == ExcClass.stopIteration) = false := by simp [h2 e' he']
      simp only [e1, e2]
      exact Agree.throw

theorem Agree.iterload {k : SeqKind} : Agree Shuf (fun n => Ref.iterload W C (Ref.run W C Γ n) k x t) (fun n => Ref.iterload W C (Ref.run W C Γ n) k x' t) := by
  unfold Ref.iterload
  rw [← hs.isDict]
  cases hdi : x.isDict with
  | true => exact Agree.throw
  | false =>
    simp only [Bool.false_eq_true, if_false]
    cases t with
    | coll k' u =>
      refine Agree.resolve (fun h hp => ?_)
      rcases hs.pyIter hdi with ⟨h1, h2⟩ | ⟨xs, ys, h1, h2, hz⟩
      · rw [h1, h2]; exact Agree.throw
      · rw [h1, h2]
        have hdi' : x'.isDict = false := by rw [← hs.isDict]; exact hdi
        refine Agree.bind (Agree.iterElems (hz.both (fun y y' hy hy' hyy => ?_)) 0 0 [] [] .nil) (fun a b _ _ hab => Agree.pure (.of_zip hab))
        refine ⟨hyy, hrec h y y' u (.elem hdi h1 hy) (.elem hx hdi h1 hy) (.elem hx' hdi' h2 hy') hyy hp, ?_, ?_⟩
        · exact fun e he => hc.elem x k' u xs y e hx hdi h1 hy ⟨h, hp, he⟩
        · exact fun e he => hc'.elem x' k' u ys y' e hx' hdi' h2 hy' ⟨h, hp, he⟩
    | _ => exact Agree.throw

omit hx hx' hs hc hc' hrec in
theorem Agree.tupElems {v v' : Val} {ct ct' : Ty} {xs ys : List Val} (hz : Zip2 Shuf xs ys) : ∀ (us : List Ty) (i i' : Nat),
    (∀ q q' : Val × Ty, Shuf q.1 q'.1 → q.2 = q'.2 → q ∈ xs.zip us → q' ∈ ys.zip us → ∀ h, pick W C q.2 = .ok h →
      Agree Shuf (fun n => Ref.run W C Γ n h q.1 q.2) (fun n => Ref.run W C Γ n h q'.1 q.2)) →
    Agree (Zip2 Shuf) (fun n => Ref.tupElems W C (Ref.run W C Γ n) v ct xs us i) (fun n => Ref.tupElems W C (Ref.run W C Γ n) v' ct' ys us i') := by
  induction hz with
  | nil => intro us i i' _; simp only [Ref.tupElems]; exact Agree.pure .nil
  | @cons y y' ys ys' hy _ ih =>
    intro us i i' hr
    cases us with
    | nil => simp only [Ref.tupElems]; exact Agree.pure .nil
    | cons u us =>
      simp only [Ref.tupElems]
      refine Agree.bind (Q := Shuf) (Agree.reraise ?_) (fun a b _ _ hab => ?_)
      · cases hp : pick W C u with
        | error c => exact Agree.throw
        | ok h =>
          simp only []
          rw [← hy.typeOf]
          exact Agree.ite (fun hh => Agree.pure hy) (fun _ => hr (y, u) (y', u) hy rfl (by simp) (by simp) h hp)
      · refine Agree.bind (ih us _ _ (fun q q' h1 h2 h3 h4 => hr q q' h1 h2 (by simp [h3]) (by simp [h4]))) (fun as bs _ _ has => Agree.pure (.cons hab has))

theorem Agree.tupleload : Agree Shuf (fun n => Ref.tupleload W C (Ref.run W C Γ n) x t) (fun n => Ref.tupleload W C (Ref.run W C Γ n) x' t) := by
  unfold Ref.tupleload
  cases t with
  | coll k u =>
    cases k with
    | tuple => exact Agree.iterload hrec hx hx' hs hc hc'
    | _ => exact Agree.throw
  | tuple us =>
    simp only []
    rw [← hs.isDict]
    cases hdi : x.isDict with
    | true => exact Agree.throw
    | false =>
      simp only [Bool.false_eq_true, if_false]
      have hdi' : x'.isDict = false := by rw [← hs.isDict]; exact hdi
      rcases hs.pyIter hdi with ⟨h1, h2⟩ | ⟨xs, ys, h1, h2, hz⟩
      · rw [h1, h2]; exact Agree.throw
      · rw [h1, h2]
        simp only []
        rw [← hz.length_eq]
        refine Agree.ite (fun _ => Agree.throw) (fun _ => Agree.ite (fun _ => Agree.throw) (fun _ => ?_))
        refine Agree.bind (Agree.tupElems hz us 0 0 (fun q q' h3 h4 h5 h6 h hp => ?_)) (fun a b _ _ hab => Agree.pure (.of_zip hab))
        obtain ⟨y, u⟩ := q
        obtain ⟨y', u'⟩ := q'
        dsimp only at h4; subst h4
        have := List.of_mem_zip h5
        exact hrec h y y' u (.item hdi h1 this.1 this.2) (.item hx hdi h1 h5) (.item hx' hdi' h2 h6) h3 hp
  | _ => exact Agree.throw

omit hrec hx hx' hs hc hc' in
/-- One pair of a dictionary. -/
theorem pairs_each (rec : Ref.Rec) (kt vt : Ty) (l : List (Val × Val)) : ∀ acc, Ref.pairs W C rec kt vt l acc =
    each (fun p : Val × Val => Ref.part W C rec p.1 kt (.key p.1) >>= fun k => Ref.part W C rec p.2 vt (.value p.2) >>= fun y =>
      if W.hash k then Pure.pure (k, y) else M.throw (.plain .type)) (fun a q => dset a q.1 q.2) l acc := by
  induction l with
  | nil => intro acc; rfl
  | cons p l ih =>
    obtain ⟨k, y⟩ := p
    intro acc
    funext s
    simp only [Ref.pairs, each, M.bind_apply]
    cases Ref.part W C rec k kt (.key k) s with
    | ok k' s' =>
      dsimp only
      cases Ref.part W C rec y vt (.value y) s' with
      | ok y' s'' =>
        dsimp only
        cases W.hash k' with
        | true => simp only [if_true, M.pure_apply]; rw [ih]
        | false => rfl
      | err => rfl
      | div => rfl
    | err => rfl
    | div => rfl

omit hrec hx hx' hs hc hc' in
theorem Agree.part {y y' : Val} {u : Ty} {a a' : Annotation} (hy : Shuf y y')
    (hl : Agree Shuf (fun n => Ref.loadWith W C (Ref.run W C Γ n) y u (some a)) (fun n => Ref.loadWith W C (Ref.run W C Γ n) y' u (some a'))) :
    Agree Shuf (fun n => Ref.part W C (Ref.run W C Γ n) y u a) (fun n => Ref.part W C (Ref.run W C Γ n) y' u a') := by
  unfold Ref.part
  rw [← hy.isInstTy]
  exact Agree.ite (fun _ => Agree.pure hy) (fun _ => hl)

omit hrec hx hx' hs hc hc' in
theorem part_becomes {y z : Val} {u : Ty} {a : Annotation} (h : Ok (fun n => Ref.part W C (Ref.run W C Γ n) y u a) z) : Becomes W C Γ y u z := by
  unfold Ref.part at h
  by_cases hb : (C.isBasic u && isInstTy u y) = true
  · simp only [hb, if_true] at h
    have := Ok.unique (Ok.pure y) h
    subst this
    left
    rw [Bool.and_eq_true] at hb
    refine ⟨?_, rfl⟩
    cases u with
    | prim p => exact ⟨p, rfl, by simpa [Config.isBasic] using hb.1, hb.2⟩
    | _ => simp [Config.isBasic] at hb
  · simp only [hb] at h
    right
    obtain ⟨N, h⟩ := h
    cases hp : pick W C u with
    | error c =>
      have := h N (Nat.le_refl _)
      simp [Ref.loadWith, Ref.resolve, hp, M.bind_apply] at this
    | ok hh =>
      refine ⟨hh, hp, N, fun n hn => ?_⟩
      have := h n hn
      simp only [Ref.loadWith, Ref.resolve, hp, M.bind_apply, M.pure_apply, M.catch_apply, Bool.false_eq_true, if_false] at this
      cases hr : Ref.run W C Γ n hh y u () with
      | ok r s => rw [hr] at this; cases this; exact hr
      | err e s => rw [hr] at this; dsimp only at this; split at this <;> cases this
      | div => rw [hr] at this; cases this

theorem Agree.dictload (hk : KeysApart W C Γ v0 t0) : Agree Shuf (fun n => Ref.dictload W C (Ref.run W C Γ n) x t) (fun n => Ref.dictload W C (Ref.run W C Γ n) x' t) := by
  unfold Ref.dictload
  cases t with
  | dict kt vt =>
    refine Agree.resolve (fun _ _ => Agree.resolve (fun _ _ => ?_))
    refine Agree.rescue ?_ (fun e e' _ _ => ?_)
    rotate_left
    · cases e.cls.isAttr <;> cases e'.cls.isAttr <;> exact Agree.throw
    by_cases hdd : ∃ kvs, DictData C x kvs
    rotate_left
    · have hn : ∀ {y : Val}, (¬ ∃ kvs, DictData C y kvs) → items (dictequivalence C y) = none := by
        intro y hy
        cases hi : items (dictequivalence C y) with
        | none => rfl
        | some kvs => exact absurd ⟨kvs, (items_dictequivalence y kvs).1 hi⟩ hy
      rw [hn hdd, hn (hs.not_dictData hdd)]
      exact Agree.throw
    obtain ⟨kvs, hdd⟩ := hdd
    obtain ⟨mid, kvs', hdd', hz, hp⟩ := hs.dictData hdd
    rw [(items_dictequivalence x kvs).2 hdd, (items_dictequivalence x' kvs').2 hdd']
    simp only [pairs_each]
    have hkey : ∀ (a : Val), (∃ p ∈ kvs, p.1 = a) → Agree Shuf (fun n => Ref.part W C (Ref.run W C Γ n) a kt (.key a)) (fun n => Ref.part W C (Ref.run W C Γ n) a kt (.key a)) := by
      rintro a ⟨p, hpm, rfl⟩
      obtain ⟨q, hq, hpq⟩ := hz.mem_left hpm
      refine Agree.part .same (Agree.subLoad hrec (.key hdd hpm) (.key hx hdd hpm) ?_ .same)
      rw [hpq.1]
      exact .key hx' hdd' (hp.subset hq)
    have hitem := hz.both (S := fun p q => Agree (fun a b : Val × Val => a.1 = b.1 ∧ Shuf a.2 b.2)
        (fun n => (fun p : Val × Val => Ref.part W C (Ref.run W C Γ n) p.1 kt (.key p.1) >>= fun k => Ref.part W C (Ref.run W C Γ n) p.2 vt (.value p.2) >>= fun y =>
          if W.hash k then (Pure.pure (k, y) : R (Val × Val)) else M.throw (.plain .type)) p)
        (fun n => (fun p : Val × Val => Ref.part W C (Ref.run W C Γ n) p.1 kt (.key p.1) >>= fun k => Ref.part W C (Ref.run W C Γ n) p.2 vt (.value p.2) >>= fun y =>
          if W.hash k then (Pure.pure (k, y) : R (Val × Val)) else M.throw (.plain .type)) q)) (fun p q hpm hq hpq => by
      dsimp only
      rw [← hpq.1]
      refine Agree.bind (hkey p.1 ⟨p, hpm, rfl⟩) (fun a b ha hb _ => ?_)
      have := Ok.unique ha hb; subst this
      refine Agree.bind (Agree.part hpq.2 (Agree.subLoad hrec (.val hdd hpm) (.val hx hdd hpm) (.val hx' hdd' (hp.subset hq)) hpq.2)) (fun c d _ _ hcd => ?_)
      exact Agree.ite (fun _ => Agree.pure ⟨rfl, hcd⟩) (fun _ => Agree.throw))
    rcases each_agree (upd := fun (a : List (Val × Val)) (q : Val × Val) => dset a q.1 q.2) (upd' := fun (a : List (Val × Val)) (q : Val × Val) => dset a q.1 q.2)
      hitem hp [] [] with ⟨rs, ms, rs', h1, h2, h3, h4, h5, _⟩ | ⟨⟨e, h1⟩, ⟨e', h2⟩⟩
    rotate_left
    · exact Or.inr ⟨⟨e, Er.bind1 h1⟩, ⟨e', Er.bind1 h2⟩⟩
    have hbec : Zip2 (fun (p r : Val × Val) => p ∈ kvs ∧ Becomes W C Γ p.1 kt r.1) kvs rs := by
      refine h5.both (fun p r hpm _ hr => ⟨hpm, ?_⟩)
      obtain ⟨a, ha, hr⟩ := Ok.bind_inv hr (hkey p.1 ⟨p, hpm, rfl⟩).left_total
      obtain ⟨q, hq, hpq⟩ := hz.mem_left hpm
      have htot := (Agree.part (a := .value p.2) (a' := .value q.2) hpq.2 (Agree.subLoad hrec (.val hdd hpm) (.val hx hdd hpm) (.val hx' hdd' (hp.subset hq)) hpq.2)).left_total
      obtain ⟨b, _, hr⟩ := Ok.bind_inv hr htot
      cases hh : W.hash a with
      | false => simp only [hh] at hr; exact (Ok.not_er hr (Er.throw _)).elim
      | true =>
        simp only [hh, if_true] at hr
        have := Ok.unique (Ok.pure (a, b)) hr
        rw [← this]
        exact part_becomes ha
    have hpw : rs.Pairwise (fun a b => pyEq a.1 b.1 = false ∧ pyEq b.1 a.1 = false) := by
      have := hk x kvs kt vt hx hdd
      clear h1 h2 h3 h4 h5 hitem
      revert this hbec
      generalize hd : (fun (p r : Val × Val) => p ∈ kvs ∧ Becomes W C Γ p.1 kt r.1) = S
      have hS : ∀ p r, S p r → Becomes W C Γ p.1 kt r.1 := by subst hd; exact fun _ _ h => h.2
      clear hd
      intro hbec hpw
      clear hdd hz hkey
      induction hbec with
      | nil => exact .nil
      | @cons p r ps rs hpr hrest ih =>
        rw [List.pairwise_cons] at hpw
        refine List.pairwise_cons.2 ⟨fun r' hr' => ?_, ih hpw.2⟩
        obtain ⟨p', hp', hpr'⟩ := hrest.mem_right hr'
        exact hpw.1 p' hp' _ _ (hS _ _ hpr) (hS _ _ hpr')
    have hms : ms.Pairwise (fun a b => pyEq a.1 b.1 = false ∧ pyEq b.1 a.1 = false) := by
      have hn := zip_names h3
      have : (rs.map (·.1)).Pairwise (fun a b => pyEq a b = false ∧ pyEq b a = false) := List.pairwise_map.2 hpw
      rw [hn] at this
      exact List.pairwise_map.1 this
    have hrs' : rs'.Pairwise (fun a b => pyEq a.1 b.1 = false ∧ pyEq b.1 a.1 = false) := h4.pairwise hms (fun h => ⟨h.2, h.1⟩)
    have dist : ∀ {l : List (Val × Val)}, l.Pairwise (fun a b => pyEq a.1 b.1 = false ∧ pyEq b.1 a.1 = false) → l.foldl (fun a q => dset a q.1 q.2) [] = l := by
      intro l hl
      have := foldl_dset_distinct (l := l) (acc := []) (by
        unfold Distinct
        rw [List.nil_append]
        exact List.pairwise_map.2 (hl.imp (fun h => h.1)))
      simpa using this
    rw [dist hpw] at h1
    rw [dist hrs'] at h2
    exact Or.inl ⟨.dict rs, .dict rs', Ok.bind h1 (Ok.pure _), Ok.bind h2 (Ok.pure _), .of_items h3 h4⟩
  | _ => exact Agree.throw
/-! ## Unions -/

omit hrec hx hx' hs hc hc' in
theorem dget_shuf {kvs mid kvs' : List (Val × Val)} (hz : ShufItems kvs mid) (hp : mid.Perm kvs') (hn : (strKeys kvs).Nodup) (n : String) :
    (dget kvs (.str n) = none ∧ dget kvs' (.str n) = none) ∨ ∃ a b, dget kvs (.str n) = some a ∧ dget kvs' (.str n) = some b ∧ Shuf a b := by
  have hk : (strKeys kvs).Perm (strKeys kvs') := by rw [hz.strKeys]; exact strKeys_perm hp
  cases h : dget kvs (.str n) with
  | none =>
    left
    rw [dget_none_str] at h
    exact ⟨rfl, dget_none_str.2 (fun hm => h (hk.symm.subset hm))⟩
  | some a =>
    right
    obtain ⟨q, hq, h1, h2⟩ := hz.mem_left (dget_mem_str h)
    obtain ⟨k, b⟩ := q
    dsimp only at h1 h2
    subst h1
    exact ⟨a, b, rfl, dget_of_mem_str (hk.nodup hn) (hp.subset hq), h2⟩

omit hrec hx hx' hc hc' in
theorem unionOrder_shuf (hn : ∀ kvs, x = .dict kvs → (strKeys kvs).Nodup) (ts : List Ty) : Ref.unionOrder W C x ts = Ref.unionOrder W C x' ts := by
  cases hs with
  | same => rfl
  | dict h1 h2 h3 =>
    rename_i kvs mid kvs'
    unfold Ref.unionOrder
    dsimp only
    cases mkDisc W [] ts with
    | none => rfl
    | some d =>
      obtain ⟨key, table⟩ := d
      dsimp only
      have hg : Shuf ((dget kvs (.str key)).getD .none) ((dget kvs' (.str key)).getD .none) := by
        rcases dget_shuf (zip_pairs h1 h2) h3 (hn kvs rfl) key with ⟨e1, e2⟩ | ⟨a, b, e1, e2, h⟩
        · rw [e1, e2]; exact .same
        · rw [e1, e2]; exact h
      have hd : ∀ l : List (Val × Ty), dget l ((dget kvs (.str key)).getD .none) = dget l ((dget kvs' (.str key)).getD .none) := by
        intro l
        unfold dget
        have : (fun p : Val × Ty => pyEq p.1 ((Option.map (fun x => x.2) (List.find? (fun p => pyEq p.1 (Val.str key)) kvs)).getD .none)) =
            fun p => pyEq p.1 ((Option.map (fun x => x.2) (List.find? (fun p => pyEq p.1 (Val.str key)) kvs')).getD .none) := by
          funext p; exact hg.pyEq_right p.1
        rw [this]
      rw [hg.hash, hd]
  | seq => rfl
  | nt => rfl
  | inst => rfl

omit hrec hx hx' hs hc hc' in
theorem refOrder_nodiv (v : Val) (ts : List Ty) : Ref.unionOrder W C v ts () ≠ .div := by
  unfold Ref.unionOrder
  cases v
  case dict kvs =>
    dsimp only
    cases mkDisc W [] ts with
    | none => exact fun h => nomatch h
    | some d =>
      obtain ⟨key, table⟩ := d
      dsimp only
      by_cases he : table.isEmpty = true
      · rw [if_pos he]; exact fun h => nomatch h
      · rw [if_neg he]
        by_cases hh : W.hash ((dget kvs (.str key)).getD .none) = true
        · rw [if_pos hh]
          cases dget table ((dget kvs (.str key)).getD .none) <;> exact fun h => nomatch h
        · rw [if_neg hh]; exact fun h => nomatch h
  all_goals exact fun h => nomatch h

omit hrec hx hx' hs hc hc' in
theorem Agree.unionTry {v v' : Val} {t t' : Ty} (us : List Ty)
    (hr : ∀ u ∈ us, ∀ h, pick W C u = .ok h → Agree Shuf (fun n => Ref.run W C Γ n h v u) (fun n => Ref.run W C Γ n h v' u))
    (h1 : ∀ u ∈ us, ∀ e, Declines W C Γ v u e → e.isTL = true) (h2 : ∀ u ∈ us, ∀ e, Declines W C Γ v' u e → e.isTL = true)
    (hpe : ∀ u c, pick W C u = .error c → c = .value) :
    ∀ (c : Nat) (r r' : Val) (es es' : List Exc), Shuf r r' → Agree (fun a b : Nat × Val × List Exc => a.1 = b.1 ∧ Shuf a.2.1 b.2.1)
      (fun n => Ref.unionTry W C (Ref.run W C Γ n) v t us c r es) (fun n => Ref.unionTry W C (Ref.run W C Γ n) v' t' us c r' es') := by
  induction us with
  | nil => intro c r r' es es' h; exact Agree.pure ⟨rfl, h⟩
  | cons u us ih =>
    intro c r r' es es' h
    have ih := ih (fun w hw => hr w (by simp [hw])) (fun w hw => h1 w (by simp [hw])) (fun w hw => h2 w (by simp [hw]))
    unfold Ref.unionTry
    have hm : Agree Shuf (fun n => Ref.resolve W C u (mkExc .tlValue (.noHandlerIn u t) v u) >>= fun h => Ref.run W C Γ n h v u)
        (fun n => Ref.resolve W C u (mkExc .tlValue (.noHandlerIn u t') v' u) >>= fun h => Ref.run W C Γ n h v' u) :=
      Agree.resolve (fun h hp => hr u (by simp) h hp)
    have tl : ∀ {w : Val} {tt : Ty} {e : Exc}, (∀ e, Declines W C Γ w u e → e.isTL = true) →
        Er (fun n => Ref.resolve W C u (mkExc .tlValue (.noHandlerIn u tt) w u) >>= fun h => Ref.run W C Γ n h w u) e → e.isTL = true := by
      intro w tt e hw he
      cases hp : pick W C u with
      | error cl =>
        have := hpe u cl hp; subst this
        obtain ⟨N, he⟩ := he
        have := he N (Nat.le_refl _)
        simp [Ref.resolve, hp, M.bind_apply, Ref.lookupError, ExcClass.isValue] at this
        rw [← this]; rfl
      | ok h =>
        refine hw e ⟨h, hp, ?_⟩
        obtain ⟨N, he⟩ := he
        refine ⟨N, fun n hn => ?_⟩
        have := he n hn
        simpa [Ref.resolve, hp, M.bind_apply] using this
    refine Agree.handle hm (fun a b hab => ?_) (fun e e' he he' => ?_)
    · exact Agree.ite (fun _ => ih _ _ _ _ _ hab) (fun _ => Agree.pure ⟨rfl, hab⟩)
    · simp only [tl (h1 u (by simp)) he, tl (h2 u (by simp)) he', if_true]
      exact ih _ _ _ _ _ h

theorem Agree.unionload (hd : C.Default) (hn : ∀ kvs, x = .dict kvs → (strKeys kvs).Nodup) :
    Agree Shuf (fun n => Ref.unionload W C (Ref.run W C Γ n) x t) (fun n => Ref.unionload W C (Ref.run W C Γ n) x' t) := by
  unfold Ref.unionload
  cases t with
  | union ts =>
    simp only []
    rw [← hs.typeOf]
    refine Agree.ite (fun _ => Agree.pure hs) (fun hne => ?_)
    rw [← unionOrder_shuf hs hn ts]
    cases ho : Ref.unionOrder W C x ts () with
    | div =>
      exact absurd ho (refOrder_nodiv _ _)
    | err e u => exact Or.inr ⟨⟨e, 0, fun n _ => by simp [M.bind_apply, ho]⟩, ⟨e, 0, fun n _ => by simp [M.bind_apply, ho]⟩⟩
    | ok order u =>
      have hmem := fun w => refOrder_mem (W := W) (C := C) ho w
      have e1 : Ref.unionOrder W C x ts = Pure.pure order := by funext s; exact ho
      simp only [e1]
      refine Agree.bind (Q := Eq) (Agree.pure rfl) (fun a b _ _ hab => ?_)
      have hoo : a = order := by
        rename_i h3 h4
        exact Ok.unique h3 (Ok.pure order)
      subst hab; subst hoo
      refine Agree.bind (Agree.unionTry a (fun w hw h hp => ?_) (fun w hw e he => hc.member x ts w e hx ((hmem w).1 hw) he)
        (fun w hw e he => hc'.member x' ts w e hx' ((hmem w).1 hw) he) (fun _ _ h => pick_error hd h) 0 .none .none [] [] .same) (fun p q _ _ hpq => ?_)
      · have hw := (hmem w).1 hw
        refine hrec h x x' w (.member (fun hb => hne ?_) hw) (.member hx hw) (.member hx' hw) hs hp
        rw [Bool.and_eq_true, List.contains_iff_mem]
        exact hb
      · obtain ⟨c, r, es⟩ := p
        obtain ⟨c', r', es'⟩ := q
        obtain ⟨h3, h4⟩ := hpq
        dsimp only at h3 h4 ⊢
        subst h3
        exact Agree.ite (fun _ => Agree.pure h4) (fun _ => Agree.ite (fun _ => Agree.throw) (fun _ => Agree.throw))
  | _ => exact Agree.throw

omit hc hc' in
theorem Agree.enumload (ho : Orderless W C t x x') : Agree Shuf (fun n => Ref.enumload W C (Ref.run W C Γ n) x t) (fun n => Ref.enumload W C (Ref.run W C Γ n) x' t) := by
  unfold Ref.enumload
  cases t with
  | enum e =>
    simp only []
    rw [← hs.enumCall ho]
    cases enumCall W e x with
    | some m => exact Agree.pure .same
    | none =>
      simp only []
      have : ∀ (us : List Ty), (∀ u ∈ us, u ∈ (W.enm e).hints) → ∀ es es', Agree Shuf (fun n => Ref.enumHints W C (Ref.run W C Γ n) x e us es)
          (fun n => Ref.enumHints W C (Ref.run W C Γ n) x' e us es') := by
        intro us
        induction us with
        | nil => intro _ es es'; exact Agree.throw
        | cons u us ih =>
          intro hm es es'
          simp only [Ref.enumHints]
          refine Agree.rescue ?_ (fun e e' _ _ => ih (fun w hw => hm w (by simp [hw])) _ _)
          have hu := hm u (by simp)
          refine Agree.bind (Agree.subLoad hrec (.hint hu) (.hint hx hu) (.hint hx' hu) hs) (fun a b _ _ hab => ?_)
          rw [hab.enumCall ho]
          cases enumCall W e b with
          | some m => exact Agree.pure .same
          | none => exact Agree.throw
      exact this _ (fun _ h => h) [] []
  | _ => exact Agree.throw

omit hc hc' in
theorem Agree.newtypeload : Agree Shuf (fun n => Ref.newtypeload W C (Ref.run W C Γ n) x t) (fun n => Ref.newtypeload W C (Ref.run W C Γ n) x' t) := by
  unfold Ref.newtypeload
  cases t with
  | newtype n u => exact Agree.subLoad hrec .newtype hx.newtype hx'.newtype hs
  | _ => exact Agree.throw

omit hc hc' in
theorem Agree.forwardrefload : Agree Shuf (fun n => Ref.forwardrefload W C Γ (Ref.run W C Γ n) x t) (fun n => Ref.forwardrefload W C Γ (Ref.run W C Γ n) x' t) := by
  unfold Ref.forwardrefload
  cases t with
  | fref m =>
    cases hΓ : Γ with
    | none => exact Agree.throw (e := mkExc .tlBase .frefDisabled x (.fref m)) (e' := mkExc .tlBase .frefDisabled x' (.fref m))
    | some f =>
      cases hf : f m with
      | none => simp only [hf]; exact Agree.throw
      | some u =>
        simp only [hf]
        subst hΓ
        exact Agree.subLoad hrec (.fref ⟨f, rfl, hf⟩) (.fref f hx rfl hf) (.fref f hx' rfl hf) hs
  | _ => exact Agree.throw
end

/-! ## Leaves -/

theorem ofL_except {e : Except ExcClass Val} {g : ExcClass → Exc} :
    (ofL (match e with | .ok r => (Pure.pure r : L Val) | .error c => M.throw (g c)) : R Val) = match e with | .ok r => Pure.pure r | .error c => M.throw (g c) := by
  cases e <;> rfl

theorem Agree.except {α β : Type} {Q : α → β → Prop} {a : Except ExcClass α} {b : Except ExcClass β} (h : Alike Q a b) {m : α → R Val} {m' : β → R Val}
    (hm : ∀ r q, Q r q → Agree Shuf (fun _ => m r) (fun _ => m' q)) {g g' : ExcClass → Exc} :
    Agree Shuf (fun _ => (match a with | .ok r => m r | .error c => M.throw (g c) : R Val)) (fun _ => match b with | .ok r => m' r | .error c => M.throw (g' c)) := by
  rcases h with ⟨r, q, rfl, rfl, h⟩ | ⟨e, e', rfl, rfl⟩
  · exact hm r q h
  · exact Agree.throw

section leaves
variable {x x' : Val} (hs : Shuf x x')
include hs

theorem Agree.noneload {t : Ty} : Agree Shuf (fun _ => ofL (TL.noneload x t)) (fun _ => ofL (TL.noneload x' t)) := by
  by_cases h : x = .none
  · have h' := hs.none_iff.1 h
    subst h; subst h'; exact Or.inl ⟨.none, .none, ⟨0, fun _ _ => rfl⟩, ⟨0, fun _ _ => rfl⟩, .same⟩
  · have h' : x' ≠ .none := fun h' => h (hs.none_iff.2 h')
    exact Or.inr ⟨⟨_, 0, fun _ _ => by simp only [ofL, TL.noneload, if_neg h]; rfl⟩, ⟨_, 0, fun _ _ => by simp only [ofL, TL.noneload, if_neg h']; rfl⟩⟩

theorem Agree.literalload {t : Ty} : Agree Shuf (fun _ => ofL (TL.literalload x t)) (fun _ => ofL (TL.literalload x' t)) := by
  cases t with
  | lit vs =>
    simp only [TL.literalload, ← hs.pyIn]
    cases pyIn x vs with
    | true => exact Or.inl ⟨x, x', ⟨0, fun _ _ => rfl⟩, ⟨0, fun _ _ => rfl⟩, hs⟩
    | false => exact Or.inr ⟨⟨_, 0, fun _ _ => rfl⟩, ⟨_, 0, fun _ _ => rfl⟩⟩
  | _ => exact Or.inr ⟨⟨_, 0, fun _ _ => rfl⟩, ⟨_, 0, fun _ _ => rfl⟩⟩

theorem Agree.anyload : Agree Shuf (fun _ => ofL (TL.anyload x)) (fun _ => ofL (TL.anyload x')) :=
  Or.inl ⟨x, x', ⟨0, fun _ _ => rfl⟩, ⟨0, fun _ _ => rfl⟩, hs⟩

omit hs in
theorem Agree.ofAlike {a b : Except ExcClass Val} {m m' : L Val} (h : Alike Shuf a b) (h1 : ∀ r, a = .ok r → m {} = .ok r {}) (h2 : ∀ e, a = .error e → ∃ e', m {} = .err e' {})
    (h3 : ∀ r, b = .ok r → m' {} = .ok r {}) (h4 : ∀ e, b = .error e → ∃ e', m' {} = .err e' {}) : Agree Shuf (fun _ => ofL m) (fun _ => ofL m') := by
  rcases h with ⟨r, q, e1, e2, h⟩ | ⟨e, e', e1, e2⟩
  · exact Or.inl ⟨r, q, ⟨0, fun _ _ => by simp only [ofL, h1 r e1]⟩, ⟨0, fun _ _ => by simp only [ofL, h3 q e2]⟩, h⟩
  · obtain ⟨d, h5⟩ := h2 e e1
    obtain ⟨d', h6⟩ := h4 e' e2
    exact Or.inr ⟨⟨d, 0, fun _ _ => by simp only [ofL, h5]⟩, ⟨d', 0, fun _ _ => by simp only [ofL, h6]⟩⟩

theorem alike_patCompile : Alike Shuf (patCompile W x) (patCompile W x') := by
  cases hs with
  | same =>
    cases h : patCompile W x with
    | ok r => exact Or.inl ⟨r, r, rfl, rfl, .same⟩
    | error e => exact Or.inr ⟨e, e, rfl, rfl⟩
  | _ => exact Or.inr ⟨_, _, rfl, rfl⟩

theorem alike_tdSeconds : Alike Shuf (tdSeconds W x) (tdSeconds W x') := by
  cases hs with
  | same =>
    cases h : tdSeconds W x with
    | ok r => exact Or.inl ⟨r, r, rfl, rfl, .same⟩
    | error e => exact Or.inr ⟨e, e, rfl, rfl⟩
  | _ => exact Or.inr ⟨_, _, rfl, rfl⟩

theorem Agree.patternload {t : Ty} : Agree Shuf (fun _ => ofL (TL.patternload W x t)) (fun _ => ofL (TL.patternload W x' t)) := by
  refine Agree.ofAlike (alike_patCompile (W := W) hs) ?_ ?_ ?_ ?_
  · intro r h; simp only [TL.patternload, h]; rfl
  · intro e h; simp only [TL.patternload, h]; split; exact ⟨_, rfl⟩; split; exact ⟨_, rfl⟩; exact ⟨_, rfl⟩
  · intro r h; simp only [TL.patternload, h]; rfl
  · intro e h; simp only [TL.patternload, h]; split; exact ⟨_, rfl⟩; split; exact ⟨_, rfl⟩; exact ⟨_, rfl⟩

theorem Agree.timedeltaload {t : Ty} : Agree Shuf (fun _ => ofL (TL.timedeltaload W x t)) (fun _ => ofL (TL.timedeltaload W x' t)) := by
  refine Agree.ofAlike (alike_tdSeconds (W := W) hs) ?_ ?_ ?_ ?_
  · intro r h; simp only [TL.timedeltaload, h]; rfl
  · intro e h; simp only [TL.timedeltaload, h]; split; exact ⟨_, rfl⟩; exact ⟨_, rfl⟩
  · intro r h; simp only [TL.timedeltaload, h]; rfl
  · intro e h; simp only [TL.timedeltaload, h]; split; exact ⟨_, rfl⟩; exact ⟨_, rfl⟩

omit hs in
theorem Agree.datetimeload {k : DtKind} (h : Orderless W C (.dt k) x x') : Agree Shuf (fun _ => ofL (TL.datetimeload W x (.dt k))) (fun _ => ofL (TL.datetimeload W x' (.dt k))) := by
  refine Agree.ofAlike (h : Alike Shuf (dtParse W k x) (dtParse W k x')) ?_ ?_ ?_ ?_
  · intro r h; simp only [TL.datetimeload, h]; rfl
  · intro e h; simp only [TL.datetimeload, h]; split; exact ⟨_, rfl⟩; split; exact ⟨_, rfl⟩; exact ⟨_, rfl⟩
  · intro r h; simp only [TL.datetimeload, h]; rfl
  · intro e h; simp only [TL.datetimeload, h]; split; exact ⟨_, rfl⟩; split; exact ⟨_, rfl⟩; exact ⟨_, rfl⟩

omit hs in
theorem Agree.strconstructload {c : String} (h : Orderless W C (.strcons c) x x') :
    Agree Shuf (fun _ => ofL (TL.strconstructload W x (.strcons c))) (fun _ => ofL (TL.strconstructload W x' (.strcons c))) := by
  refine Agree.ofAlike (h : Alike Shuf (W.call (.strcons c) x) (W.call (.strcons c) x')) ?_ ?_ ?_ ?_
  · intro r h; simp only [TL.strconstructload, pyCall, h]; rfl
  · intro e h; simp only [TL.strconstructload, pyCall, h]; split; exact ⟨_, rfl⟩; split; exact ⟨_, rfl⟩; exact ⟨_, rfl⟩
  · intro r h; simp only [TL.strconstructload, pyCall, h]; rfl
  · intro e h; simp only [TL.strconstructload, pyCall, h]; split; exact ⟨_, rfl⟩; split; exact ⟨_, rfl⟩; exact ⟨_, rfl⟩

theorem Agree.basicload {p : Prim} (h : Orderless W C (.prim p) x x') :
    Agree Shuf (fun _ => ofL (TL.basicload W C x (.prim p))) (fun _ => ofL (TL.basicload W C x' (.prim p))) := by
  by_cases ht : typeOf x = .prim p
  · have := hs.basic ht; subst this
    have : (ofL (TL.basicload W C x (.prim p)) : R Val) = Pure.pure x := by
      funext s
      simp only [ofL, TL.basicload, ht, ne_eq, not_true_eq_false, if_false]
      rfl
    rw [this]
    exact Agree.pure .same
  · have ht' : typeOf x' ≠ .prim p := by rw [← hs.typeOf]; exact ht
    cases hb : C.basiccast with
    | false =>
      refine Or.inr ⟨⟨mkExc .tlValue (.wrongType x (.prim p)) x (.prim p), 0, fun _ _ => ?_⟩, ⟨mkExc .tlValue (.wrongType x' (.prim p)) x' (.prim p), 0, fun _ _ => ?_⟩⟩
      · simp only [ofL, TL.basicload, ne_eq, ht, not_false_eq_true, if_true, hb]; rfl
      · simp only [ofL, TL.basicload, ne_eq, ht', not_false_eq_true, if_true, hb]; rfl
    | true =>
      refine Agree.ofAlike ((h : C.basiccast = true → Alike Shuf (W.call (.prim p) x) (W.call (.prim p) x')) hb) ?_ ?_ ?_ ?_
      · intro r h; simp only [TL.basicload, ne_eq, ht, not_false_eq_true, if_true, hb, pyCall, h]; rfl
      · intro e h; simp only [TL.basicload, ne_eq, ht, not_false_eq_true, if_true, hb, pyCall, h]; split; exact ⟨_, rfl⟩; split; exact ⟨_, rfl⟩; exact ⟨_, rfl⟩
      · intro r h; simp only [TL.basicload, ne_eq, ht', not_false_eq_true, if_true, hb, pyCall, h]; rfl
      · intro e h; simp only [TL.basicload, ne_eq, ht', not_false_eq_true, if_true, hb, pyCall, h]; split; exact ⟨_, rfl⟩; split; exact ⟨_, rfl⟩; exact ⟨_, rfl⟩
end leaves

end TL
