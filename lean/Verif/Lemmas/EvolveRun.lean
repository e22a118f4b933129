import Verif.Lemmas.EvolveObj
/-!
# Loading the data of an old program into the types of a new one
-/

namespace TL

set_option linter.unusedSectionVars false

variable {W : World} {C : Config} {V : Nat → Nat → Prop} {Γ Γ' : Env} {v0 : Val} {t0 : Ty}

section
variable {α β γ δ : Type} {Q : α → β → Prop} {Q' : γ → δ → Prop}

theorem Up.handle {m : R α} {m' : Nat → R β} {f : α → R γ} {f' : Nat → β → R δ} {g : Exc → R γ} {g' : Nat → Exc → R δ} (hm : Up Q m m')
    (hf : ∀ a b, Q a b → Up Q' (f a) (fun n => f' n b))
    (hg : ∀ e e', e.cls = .stopIteration → e'.cls = .stopIteration → Up Q' (g e) (fun n => g' n e'))
    (hg0 : ∀ e, e.cls ≠ .stopIteration → ∀ k, Up Q' (g e) k) : Up Q' (M.handle m f g) (fun n => M.handle (m' n) (f' n) (g' n)) := by
  unfold Up at *
  simp only [M.handle]
  cases h : m () with
  | ok a u =>
    rw [h] at hm
    obtain ⟨b, h1, h2⟩ := hm
    have := hf a b h2
    dsimp only
    cases hfa : f a () with
    | ok c u =>
      rw [hfa] at this
      obtain ⟨d, h3, h4⟩ := this
      exact ⟨d, Ok.handle h1 h3, h4⟩
    | err e u =>
      rw [hfa] at this
      intro hc
      obtain ⟨e', h3, h4⟩ := this hc
      exact ⟨e', Er.handle h1 h3, h4⟩
    | div => trivial
  | err e u =>
    rw [h] at hm
    dsimp only
    by_cases hc : e.cls = .stopIteration
    · obtain ⟨e', h1, h2⟩ := hm hc
      have := hg e e' hc h2
      cases hge : g e () with
      | ok c u =>
        rw [hge] at this
        obtain ⟨d, h3, h4⟩ := this
        exact ⟨d, Ok.handle2 h1 h3, h4⟩
      | err e1 u =>
        rw [hge] at this
        intro hc1
        obtain ⟨e2, h3, h4⟩ := this hc1
        exact ⟨e2, Er.handle2 h1 h3, h4⟩
      | div => trivial
    · exact hg0 e hc _
  | div => trivial

theorem Up.step {h : Handler} {v : Val} {t : Ty} {Q : α → Val → Prop} {m : R α} (hm : Up Q m (fun k => Ref.step W C Γ' (Ref.run W C Γ' k) h v t)) :
    Up Q m (fun k => Ref.run W C Γ' k h v t) := by
  unfold Up at *
  cases hx : m () with
  | ok a u =>
    rw [hx] at hm
    obtain ⟨b, h1, h2⟩ := hm
    exact ⟨b, h1.step, h2⟩
  | err e u =>
    rw [hx] at hm
    intro hc
    obtain ⟨e', h1, h2⟩ := hm hc
    exact ⟨e', h1.step, h2⟩
  | div => trivial
end

theorem tl_not_stop {e : Exc} (h : e.isTL = true) : e.cls ≠ .stopIteration := by
  intro hc; unfold Exc.isTL at h; rw [hc] at h; cases h

theorem Zip2.append {α β : Type} {Q : α → β → Prop} {l m : List α} {l' m' : List β} (h : Zip2 Q l l') (h' : Zip2 Q m m') : Zip2 Q (l ++ m) (l' ++ m') := by
  induction h with
  | nil => exact h'
  | cons hab _ ih => exact .cons hab ih

/-! ## Parts -/

/-- A type and its new version are treated alike when they are not the same. -/
theorem Newer.plainLoop {t t' : Ty} (hn : Newer W C V Γ Γ' t t') : t = t' ∨ ((C.isBasic t = false ∧ C.isBasic t' = false) ∧ (usesMap C t = true ∧ usesMap C t' = true) ∧
    (∀ rec h x, Ref.iterElem C rec h t x = rec h x t) ∧ ∀ rec h x, Ref.iterElem C rec h t' x = rec h x t') := by
  have opt : ∀ {Δ : Env} {us : List Ty} {u : Ty}, OptionalOf us u → Compound Δ u → us.all C.isBasic = false := by
    intro Δ us u h1 h2
    have : C.isBasic u = false := by cases h2 <;> rfl
    rcases h1 with rfl | rfl <;> simp [this]
  have un : ∀ {Δ : Env} {us : List Ty} {u : Ty}, OptionalOf us u → Compound Δ u → C.isBasic (.union us) = false ∧ usesMap C (.union us) = true ∧
      ∀ rec h x, Ref.iterElem C rec h (.union us) x = rec h x (.union us) := by
    intro Δ us u h1 h2
    have := opt h1 h2
    refine ⟨rfl, by simp [usesMap, this], fun rec h x => ?_⟩
    simp only [Ref.iterElem, this]
    rfl
  have comp : ∀ {Δ : Env} {u : Ty}, Compound Δ u → C.isBasic u = false ∧ usesMap C u = true ∧ ∀ rec h x, Ref.iterElem C rec h u x = rec h x u := by
    intro Δ u h
    cases h <;> exact ⟨rfl, rfl, fun _ _ _ => rfl⟩
  cases hn with
  | same _ => exact Or.inl rfl
  | toOptional _ h1 h2 h3 _ =>
    exact Or.inr ⟨⟨(comp h2).1, (un h1 h3).1⟩, ⟨(comp h2).2.1, (un h1 h3).2.1⟩, (comp h2).2.2, (un h1 h3).2.2⟩
  | optional _ h0 h1 h2 h3 _ =>
    exact Or.inr ⟨⟨(un h0 h2).1, (un h1 h3).1⟩, ⟨(un h0 h2).2.1, (un h1 h3).2.1⟩, (un h0 h2).2.2, (un h1 h3).2.2⟩
  | _ => exact Or.inr ⟨⟨rfl, rfl⟩, ⟨rfl, rfl⟩, fun _ _ _ => rfl, fun _ _ _ => rfl⟩

theorem Up.loadWith {Q : Val → Val → Prop} {rec : Ref.Rec} {rec' : Nat → Ref.Rec} (hd : C.Default) {x x' : Val} {t t' : Ty} {a a' : Option Annotation}
    (hp : ∀ h, pick W C t = .ok h → ∃ h', pick W C t' = .ok h')
    (hr : ∀ h h', pick W C t = .ok h → pick W C t' = .ok h' → Up Q (rec h x t) (fun m => rec' m h' x' t')) :
    Up Q (Ref.loadWith W C rec x t a) (fun m => Ref.loadWith W C (rec' m) x' t' a') := by
  unfold Ref.loadWith Ref.resolve
  cases hpt : pick W C t with
  | error c =>
    have := pick_error hd hpt; subst this
    exact Up.throw (e := mkExc .tlType (.noHandler t) x t) _ (by simp [mkExc])
  | ok h =>
    obtain ⟨h', hp'⟩ := hp h hpt
    rw [hp']
    have e1 : ∀ (x : Val) (t : Ty) (a : Option Annotation), (fun e : Exc => if e.isTL = true then (M.throw (e.push ⟨x, t, a⟩) : R Val) else M.throw (.plain .assertion)) =
        fun e => M.throw (if e.isTL = true then e.push ⟨x, t, a⟩ else .plain .assertion) := by
      intro x t a; funext e; split <;> rfl
    have ns : ∀ (e : Exc) (x : Val) (t : Ty) (a : Option Annotation), (if e.isTL = true then e.push ⟨x, t, a⟩ else .plain .assertion).cls ≠ .stopIteration := by
      intro e x t a
      split
      · rename_i h; rw [Exc.cls_push]; exact tl_not_stop h
      · simp [Exc.plain]
    show Up Q (M.rescue (rec h x t) _) (fun m => M.rescue (rec' m h' x' t') _)
    rw [e1, e1]
    exact Up.rescue (hr h h' hpt hp') (fun e he => absurd he (ns _ _ _ _)) (fun e e' _ _ he => absurd he (ns _ _ _ _))

section
variable {rec : Ref.Rec} {rec' : Nat → Ref.Rec} (hd : C.Default)
  (hrec : ∀ x t t' h h', pick W C t = .ok h → pick W C t' = .ok h' → Reaches W C Γ v0 t0 x t → Newer W C V Γ Γ' t t' →
    Up (Grown W V) (rec h x t) (fun m => rec' m h' x t'))
include hd hrec

theorem Up.newLoad {x : Val} {t t' : Ty} {a a' : Option Annotation} (hn : Newer W C V Γ Γ' t t') (hre : Reaches W C Γ v0 t0 x t) :
    Up (Grown W V) (Ref.loadWith W C rec x t a) (fun m => Ref.loadWith W C (rec' m) x t' a') :=
  Up.loadWith hd (fun _ hp => hn.pick hd hp) (fun h h' hp hp' => hrec x t t' h h' hp hp' hre hn)

theorem Up.iterElem {x : Val} {t t' : Ty} {h h' : Handler} (hp : pick W C t = .ok h) (hp' : pick W C t' = .ok h') (hn : Newer W C V Γ Γ' t t')
    (hre : Reaches W C Γ v0 t0 x t) : Up (Grown W V) (Ref.iterElem C rec h t x) (fun m => Ref.iterElem C (rec' m) h' t' x) := by
  have hr := hrec x t t' h h' hp hp' hre hn
  rcases hn.plainLoop with rfl | ⟨_, _, h1, h2⟩
  · unfold Ref.iterElem
    split
    · split
      · split
        · exact Up.pure .same
        · exact hr
      · exact hr
    · split
      · split
        · exact Up.pure .same
        · exact hr
      · exact hr
    · exact hr
  · rw [h1]
    simp only [h2]
    exact hr

theorem Up.iterElems {k : SeqKind} (hk : k.isSet = false) {t t' : Ty} {h h' : Handler} (hp : pick W C t = .ok h) (hp' : pick W C t' = .ok h')
    (hn : Newer W C V Γ Γ' t t') {v v' : Val} {ct ct' : Ty} (xs : List Val) (hre : ∀ x ∈ xs, Reaches W C Γ v0 t0 x t) : ∀ i i' acc acc',
    Zip2 (Grown W V) acc acc' →
    Up (Zip2 (Grown W V)) (Ref.iterElems W C rec h k t v ct xs i acc) (fun m => Ref.iterElems W C (rec' m) h' k t' v' ct' xs i' acc') := by
  have hmap : usesMap C t = usesMap C t' := by
    rcases hn.plainLoop with rfl | ⟨_, ⟨h1, h2⟩, _⟩
    · rfl
    · rw [h1, h2]
  induction xs with
  | nil => intro i i' acc acc' ha; exact Up.pure ha
  | cons x xs ih =>
    intro i i' acc acc' ha
    unfold Ref.iterElems
    refine Up.handle (Up.iterElem hd hrec hp hp' hn (hre x (by simp))) (fun y y' hy => ?_) (fun e e' he he' => ?_) (fun e he m' => ?_)
    · simp only [collAdd, hk, Bool.false_eq_true, if_false]
      exact ih (fun z hz => hre z (by simp [hz])) _ _ _ _ (ha.append (.cons hy .nil))
    · rw [he, he', ← hmap]
      cases usesMap C t with
      | true => simp only [Bool.true_and, beq_self_eq_true, if_true]; exact Up.pure ha
      | false =>
        simp only [Bool.false_and, Bool.false_eq_true, if_false]
        exact Up.throw _ (elemError_not_stop _ _ _ _)
    · have : (usesMap C t && e.cls == ExcClass.stopIteration) = false := by simp [he]
      rw [this]
      exact Up.throw _ (elemError_not_stop _ _ _ _)

theorem Up.iterload {k : SeqKind} (hk : k.isSet = false) {t t' : Ty} (hn : Newer W C V Γ Γ' t t') {v : Val} (hre : Reaches W C Γ v0 t0 v (.coll k t)) :
    Up (Grown W V) (Ref.iterload W C rec k v (.coll k t)) (fun m => Ref.iterload W C (rec' m) k v (.coll k t')) := by
  unfold Ref.iterload
  by_cases hdict : v.isDict = true
  · simp only [hdict, if_true]
    exact Up.throw _ (by simp [mkExc])
  · simp only [hdict]
    refine Up.call hd hn (by simp [mkExc]) (fun h h' hp hp' => ?_)
    cases hi : pyIter v with
    | none => exact Up.throw _ (by simp [mkExc])
    | some xs =>
      refine Up.bind (Q := Zip2 (Grown W V)) (Up.iterElems hd hrec hk hp hp' hn xs (fun x hx => ?_) 0 0 [] [] .nil) (fun ys ys' hys => Up.pure (.of_zip hys))
      exact .elem hre (by simpa using hdict) hi hx

theorem Up.tupElems {v v' : Val} {ct ct' : Ty} (xs : List Val) : ∀ (us us' : List Ty) (i i' : Nat), us.length = us'.length →
    (∀ (j : Nat) (u u' : Ty), us[j]? = some u → us'[j]? = some u' → Newer W C V Γ Γ' u u') → (∀ q ∈ xs.zip us, Reaches W C Γ v0 t0 q.1 q.2) →
    Up (Zip2 (Grown W V)) (Ref.tupElems W C rec v ct xs us i) (fun m => Ref.tupElems W C (rec' m) v' ct' xs us' i') := by
  induction xs with
  | nil => intro us us' i i' _ _ _; simp only [Ref.tupElems]; exact Up.pure .nil
  | cons x xs ih =>
    intro us us' i i' hl hn hre
    cases us with
    | nil =>
      cases us' with
      | nil => simp only [Ref.tupElems]; exact Up.pure .nil
      | cons => simp at hl
    | cons u us =>
      cases us' with
      | nil => simp at hl
      | cons u' us' =>
        have h0 : Newer W C V Γ Γ' u u' := hn 0 u u' rfl rfl
        simp only [Ref.tupElems]
        refine Up.bind (Q := Grown W V) ?_ (fun y y' hy => ?_)
        · refine Up.rescue ?_ (fun e he => absurd he (elemError_not_stop _ _ _ _)) (fun e e' _ _ he => absurd he (elemError_not_stop _ _ _ _))
          cases hp : pick W C u with
          | error c =>
            have := pick_error hd hp; subst this
            exact Up.throw _ (by simp [Exc.plain])
          | ok h =>
            obtain ⟨h', hp'⟩ := h0.pick hd hp
            have hr := hrec x u u' h h' hp hp' (hre (x, u) (by simp)) h0
            simp only [hp']
            rcases h0.plainLoop with rfl | ⟨⟨h1, h2⟩, _⟩
            · split
              · exact Up.pure .same
              · exact hr
            · simp only [h1, h2, Bool.false_and, Bool.false_eq_true, if_false]
              exact hr
        · refine Up.bind (Q := Zip2 (Grown W V)) (ih us us' _ _ (by simpa using hl) (fun j w w' hw hw' => hn (j + 1) w w' (by simpa using hw) (by simpa using hw'))
            (fun q hq => hre q (by simp [hq]))) (fun ys ys' hys => Up.pure (.cons hy hys))

theorem Up.tupleload {ts us : List Ty} (hl : ts.length = us.length) (hn : ∀ (j : Nat) (u u' : Ty), ts[j]? = some u → us[j]? = some u' → Newer W C V Γ Γ' u u')
    {v : Val} (hre : Reaches W C Γ v0 t0 v (.tuple ts)) :
    Up (Grown W V) (Ref.tupleload W C rec v (.tuple ts)) (fun m => Ref.tupleload W C (rec' m) v (.tuple us)) := by
  unfold Ref.tupleload
  by_cases hdict : v.isDict = true
  · simp only [hdict, if_true]
    exact Up.throw _ (by simp [mkExc])
  · simp only [hdict, Bool.false_eq_true, if_false]
    cases hi : pyIter v with
    | none => exact Up.throw _ (by simp [Exc.plain])
    | some xs =>
      dsimp only
      rw [← hl]
      refine Up.ite (fun _ => Up.throw _ (by simp [mkExc])) (fun _ => ?_)
      refine Up.ite (fun _ => Up.throw _ (by simp [mkExc])) (fun _ => ?_)
      refine Up.bind (Q := Zip2 (Grown W V)) (Up.tupElems hd hrec xs ts us 0 0 hl hn (fun q hq => ?_)) (fun ys ys' hys => Up.pure (.of_zip hys))
      exact .item hre (by simpa using hdict) hi hq

omit hd hrec in
theorem grown_dset {l l' : List (Val × Val)} (h : Zip2 (fun p q => p.1 = q.1 ∧ Grown W V p.2 q.2) l l') {k x y : Val} (hxy : Grown W V x y) :
    Zip2 (fun p q => p.1 = q.1 ∧ Grown W V p.2 q.2) (dset l k x) (dset l' k y) := by
  induction h with
  | nil => exact .cons ⟨rfl, hxy⟩ .nil
  | @cons p q ps qs hpq h ih =>
    obtain ⟨a, u⟩ := p
    obtain ⟨b, w⟩ := q
    obtain ⟨h1, h2⟩ := hpq
    dsimp only at h1; subst h1
    simp only [dset]
    split
    · exact .cons ⟨rfl, hxy⟩ h
    · exact .cons ⟨rfl, h2⟩ ih

theorem Up.pairs (hsame : ∀ x t h, pick W C t = .ok h → Reaches W C Γ v0 t0 x t → SameNames W Γ Γ' t → Up Eq (rec h x t) (fun m => rec' m h x t))
    {kt vt vt' : Ty} (hk : SameNames W Γ Γ' kt) (hn : Newer W C V Γ Γ' vt vt') (kvs : List (Val × Val))
    (hkey : ∀ p ∈ kvs, Reaches W C Γ v0 t0 p.1 kt) (hval : ∀ p ∈ kvs, Reaches W C Γ v0 t0 p.2 vt) : ∀ acc acc',
    Zip2 (fun p q => p.1 = q.1 ∧ Grown W V p.2 q.2) acc acc' →
    Up (Zip2 (fun p q => p.1 = q.1 ∧ Grown W V p.2 q.2)) (Ref.pairs W C rec kt vt kvs acc) (fun m => Ref.pairs W C (rec' m) kt vt' kvs acc') := by
  induction kvs with
  | nil => intro acc acc' h; exact Up.pure h
  | cons p kvs ih =>
    obtain ⟨k, x⟩ := p
    intro acc acc' hacc
    unfold Ref.pairs
    refine Up.bind (Q := Eq) ?_ (fun k1 k2 he => ?_)
    · unfold Ref.part
      refine Up.ite (fun _ => Up.pure rfl) (fun _ => ?_)
      refine Up.loadWith hd (fun h hp => ⟨h, hp⟩) (fun h h' hp hp' => ?_)
      rw [hp] at hp'; cases hp'
      exact hsame k kt h hp (hkey (k, x) (by simp)) hk
    · subst he
      refine Up.bind (Q := Grown W V) ?_ (fun y y' hy => ?_)
      · have hl : Up (Grown W V) (Ref.loadWith W C rec x vt (some (.value x))) (fun m => Ref.loadWith W C (rec' m) x vt' (some (.value x))) :=
          Up.newLoad hd hrec hn (hval (k, x) (by simp))
        unfold Ref.part
        rcases hn.plainLoop with rfl | ⟨⟨h1, h2⟩, _⟩
        · exact Up.ite (fun _ => Up.pure .same) (fun _ => hl)
        · simp only [h1, h2, Bool.false_and, Bool.false_eq_true, if_false]
          exact hl
      · exact Up.ite (fun _ => ih (fun p hp => hkey p (by simp [hp])) (fun p hp => hval p (by simp [hp])) _ _ (grown_dset hacc hy))
          (fun _ => Up.throw _ (by simp [Exc.plain]))

theorem Up.dictload (hsame : ∀ x t h, pick W C t = .ok h → Reaches W C Γ v0 t0 x t → SameNames W Γ Γ' t → Up Eq (rec h x t) (fun m => rec' m h x t))
    {kt vt vt' : Ty} (hk : SameNames W Γ Γ' kt) (hn : Newer W C V Γ Γ' vt vt') {v : Val} (hre : Reaches W C Γ v0 t0 v (.dict kt vt)) :
    Up (Grown W V) (Ref.dictload W C rec v (.dict kt vt)) (fun m => Ref.dictload W C (rec' m) v (.dict kt vt')) := by
  unfold Ref.dictload
  refine Up.call (V := V) hd (.same hk) (by simp [mkExc]) (fun _ _ _ _ => Up.call hd hn (by simp [mkExc]) (fun _ _ _ _ => ?_))
  have e1 : ∀ t : Ty, (fun e : Exc => if e.cls.isAttr = true then (M.throw (mkExc .tlAttr .wrapped (dictequivalence C v) t) : R Val) else M.throw e) =
      fun e => M.throw (if e.cls.isAttr = true then mkExc .tlAttr .wrapped (dictequivalence C v) t else e) := by
    intro t; funext e; split <;> rfl
  simp only [e1]
  refine Up.rescue ?_ (fun e he => ?_) (fun e e' he he' _ => ?_)
  · cases hi : items (dictequivalence C v) with
    | none => exact Up.throw _ (by simp [Exc.plain])
    | some kvs =>
      have hdd := (items_dictequivalence v kvs).1 hi
      exact Up.bind (Q := Zip2 (fun p q => p.1 = q.1 ∧ Grown W V p.2 q.2))
        (Up.pairs hd hrec hsame hk hn kvs (fun p hp => .key hre hdd hp) (fun p hp => .val hre hdd hp) [] [] .nil) (fun ys ys' hys => Up.pure (.of_pairs hys))
  · split at he
    · simp [mkExc] at he
    · exact he
  · rw [he']
    simp only [ExcClass.isAttr, Bool.false_eq_true, if_false]
    exact he'
end

/-! ## Optional -/

/-- Loading something other than None into `Optional[t]` is loading it into `t`. -/
theorem optional_eq (hd : C.Default) (hb : .none ∈ C.basictypes) {Δ : Env} {ts : List Ty} {t : Ty} (ho : OptionalOf ts t) (hc : Compound Δ t) {rec : Ref.Rec} {h : Handler}
    (hp : pick W C t = .ok h) {v : Val} (hv : v ≠ .none) {e0 : Exc} (h0 : rec h v t () ≠ .div → rec .noneload v (.prim .none) () = .err e0 ()) (he0 : e0.isTL = true) :
    Ref.unionload W C rec v (.union ts) () = match rec h v t () with
      | .ok a _ => .ok a ()
      | .err e _ => if e.isTL then .err (mkExcSubs .tlValue (.unionNone (.union ts)) v (.union ts)
          [e.push ⟨v, .union ts, some (.union t)⟩, e0.push ⟨v, .union ts, some (.union (.prim .none))⟩]) () else .err e ()
      | .div => .div := by
  have hbt : C.isBasic t = false := by cases hc <;> rfl
  have hbn : C.isBasic (.prim .none) = true := by simpa [Config.isBasic] using hb
  have hpref : preference C ts = [t, .prim .none] := by
    rcases ho with rfl | rfl <;> simp [preference, hbt, hbn]
  have hmem : (C.isBasic (typeOf v) && ts.contains (typeOf v)) = false := by
    cases hbv : C.isBasic (typeOf v) with
    | false => rfl
    | true =>
      simp only [Bool.true_and]
      rw [← Bool.not_eq_true, List.contains_iff_mem]
      intro hm
      have hor : typeOf v = t ∨ typeOf v = .prim .none := by
        rcases ho with rfl | rfl <;> simp at hm
        · exact hm
        · exact hm.symm
      rcases hor with hor | hor
      · rw [hor, hbt] at hbv; cases hbv
      · cases v <;> simp [typeOf] at hor
        · exact hv rfl
  have hord : Ref.unionOrder W C v ts = Pure.pure [t, .prim .none] := by
    rw [ref_unionOrder_none, hpref]
    rintro _ ⟨k, hk⟩
    have : (Ty.prim .none) ∈ ts := by rcases ho with rfl | rfl <;> simp
    obtain ⟨c, f, vs, h1, _⟩ := hk _ this
    cases h1
  unfold Ref.unionload
  simp only [hmem, Bool.false_eq_true, if_false, hord]
  show (Ref.unionTry W C rec v (.union ts) [t, .prim .none] 0 .none [] >>= _) () = _
  simp only [M.bind_apply, Ref.unionTry, M.handle, Ref.resolve, hp, pick_none hd, M.pure_apply]
  cases hr : rec h v t () with
  | ok a u =>
    have h0 := h0 (by rw [hr]; exact fun h => nomatch h)
    cases hu : C.uniondebugconflict with
    | true => simp [M.handle, M.bind_apply, h0, he0]
    | false => rfl
  | err e u =>
    have h0 := h0 (by rw [hr]; exact fun h => nomatch h)
    cases htl : e.isTL with
    | true => simp [M.handle, M.bind_apply, h0, he0, htl]
    | false => simp [htl]
  | div => rfl

/-- Classes and collections refuse None. -/
theorem Compound.bad (hd : C.Default) (hatt : ∀ c, Uses W Γ t0 (.obj c) → (W.cls c).kind = .attrs → ∀ f ∈ (W.cls c).fields, ∃ t, FieldTy .attrs f t)
    {t : Ty} (hc : Compound Γ t) (hu : Uses W Γ t0 t) :
    ∀ n h, pick W C t = .ok h → Bad (Ref.run W C Γ n h .none t) := by
  have hlw : ∀ (rec : Ref.Rec) (u : Ty) (a : Option Annotation), (∀ h, pick W C u = .ok h → Bad (rec h .none u)) → Bad (Ref.loadWith W C rec .none u a) := by
    intro rec u a hb
    unfold Ref.loadWith Ref.resolve
    cases hp : pick W C u with
    | error c =>
      have := pick_error hd hp; subst this
      exact Bad.throw (e := mkExc .tlType (.noHandler u) .none u) (by simp [mkExc])
    | ok h =>
      have hb := hb h hp
      show Bad (M.rescue (rec h .none u) _)
      refine ⟨fun r s hr => ?_, fun e s hr => ?_⟩
      · simp only [M.catch_apply] at hr
        cases hx : rec h .none u () with
        | ok r' s' => exact hb.1 r' s' hx
        | err e s' => rw [hx] at hr; dsimp only at hr; split at hr <;> cases hr
        | div => rw [hx] at hr; cases hr
      · simp only [M.catch_apply] at hr
        cases hx : rec h .none u () with
        | ok r' s' => exact absurd hx (hb.1 r' s')
        | err e' s' =>
          rw [hx] at hr; dsimp only at hr
          split at hr
          · rename_i htl; cases hr; rw [Exc.cls_push]; exact tl_not_stop htl
          · cases hr; simp [Exc.plain]
        | div => rw [hx] at hr; cases hr
  have hres : ∀ {α : Type} (u : Ty) (e : Exc) (f : Handler → R α), e.cls ≠ .stopIteration → (∀ h, pick W C u = .ok h → Bad (f h)) → Bad (Ref.resolve W C u e >>= f) := by
    intro α u e f he hf
    unfold Ref.resolve
    cases hp : pick W C u with
    | error c =>
      have := pick_error hd hp; subst this
      exact Bad.throw (e := e) he
    | ok h => exact hf h hp
  have hdiv : ∀ h t, Bad (Ref.run W C Γ 0 h .none t) := fun h t => ⟨fun _ _ hr => (by cases hr), fun _ _ hr => (by cases hr)⟩
  induction hc with
  | @obj c =>
    intro n h hp
    cases n with
    | zero => exact hdiv _ _
    | succ n =>
      rw [pick_obj hd] at hp; cases hp
      obtain ⟨info, hi, _, he⟩ := ref_classHandler (C := C) Γ c (hatt c hu)
      show Bad (Ref.step W C Γ _ _ _ _)
      rw [he]
      unfold Ref.objMangled
      rcases ofL_mangle (C := C) info.transforms .none (.obj c) with ⟨v1, hm1, he1⟩ | ⟨_, e, hne, he1⟩
      · rw [he1]
        rcases mangle_names_ok hm1 with ⟨_, rfl⟩ | ⟨_, _, h1, _⟩
        · exact Bad.throw (e := mkExc .tlAttr (.py .attr) .none (.obj c)) (by simp [mkExc])
        · cases h1
      · rw [he1]; exact Bad.throw (e := e) hne
  | @coll k u =>
    intro n h hp
    cases n with
    | zero => exact hdiv _ _
    | succ n =>
      rw [pick_coll hd] at hp; cases hp
      have : ∀ rec : Ref.Rec, Bad (Ref.iterload W C rec k .none (.coll k u)) := by
        intro rec
        unfold Ref.iterload
        exact hres _ _ _ (by simp [mkExc]) (fun h _ => Bad.throw (by simp [mkExc]))
      cases k <;> exact this (Ref.run W C Γ n)
  | @tuple us =>
    intro n h hp
    cases n with
    | zero => exact hdiv _ _
    | succ n =>
      rw [pick_tuple hd] at hp; cases hp
      exact Bad.throw (e := .plain .type) (by simp [Exc.plain])
  | @dict k u =>
    intro n h hp
    cases n with
    | zero => exact hdiv _ _
    | succ n =>
      rw [pick_dict hd] at hp; cases hp
      show Bad (Ref.dictload W C (Ref.run W C Γ n) .none (.dict k u))
      unfold Ref.dictload
      refine hres _ _ _ (by simp [mkExc]) (fun h _ => hres _ _ _ (by simp [mkExc]) (fun h' _ => ?_))
      have : items (dictequivalence C .none) = none := by
        simp [dictequivalence, items]
      rw [this]
      exact Bad.throw (e := mkExc .tlAttr .wrapped (dictequivalence C .none) (.dict k u)) (by simp [mkExc])
  | newtype _ ih =>
    have ih := ih hu.newtype
    intro n h hp
    cases n with
    | zero => exact hdiv _ _
    | succ n =>
      rw [pick_newtype hd] at hp; cases hp
      exact hlw _ _ _ (fun h hp => ih n h hp)
  | @fref m u f hΓ hf _ ih =>
    have ih := ih (hu.fref f hΓ hf)
    intro n h hp
    cases n with
    | zero => exact hdiv _ _
    | succ n =>
      rw [pick_fref hd] at hp; cases hp
      show Bad (Ref.forwardrefload W C Γ (Ref.run W C Γ n) .none (.fref m))
      unfold Ref.forwardrefload
      simp only [hΓ, hf]
      rw [hΓ] at ih
      exact hlw _ _ _ (fun h hp => ih n h hp)

/-! ## The theorem about the loader without caches -/

theorem noneload_err {n : Nat} {v : Val} (hv : v ≠ .none) :
    Ref.run W C Γ (n + 1) .noneload v (.prim .none) () = .err (mkExc .tlValue .notNone v (.prim .none)) () := by
  show Ref.step W C Γ (Ref.run W C Γ n) .noneload v (.prim .none) () = _
  simp [Ref.step, ofL, noneload, hv]

/-- From a type to the optional version of its new version. -/
theorem Up.toOptional (hd : C.Default) (hb : .none ∈ C.basictypes) {us : List Ty} {u : Ty} (ho : OptionalOf us u) (hc : Compound Γ' u) {h : Handler}
    (hp : pick W C u = .ok h) {v : Val} (hv : v ≠ .none) {m : R Val} (hm : Up (Grown W V) m (fun k => Ref.run W C Γ' k h v u)) :
    Up (Grown W V) m (fun k => Ref.run W C Γ' k .unionload v (.union us)) := by
  have key : ∀ n, Ref.run W C Γ' (n + 1 + 1) .unionload v (.union us) () = _ :=
    fun n => optional_eq (rec := Ref.run W C Γ' (n + 1)) hd hb ho hc hp hv (fun _ => noneload_err hv) rfl
  unfold Up at *
  cases hx : m () with
  | ok a s =>
    rw [hx] at hm
    obtain ⟨b, ⟨N, h1⟩, h2⟩ := hm
    refine ⟨b, ⟨N + 2, fun n hn => ?_⟩, h2⟩
    obtain ⟨k, rfl⟩ : ∃ k, n = k + 1 + 1 := ⟨n - 2, by omega⟩
    show Ref.run W C Γ' (k + 1 + 1) .unionload v (.union us) () = _
    have h3 : Ref.run W C Γ' (k + 1) h v u () = _ := h1 (k + 1) (by omega)
    rw [key k, h3]
  | err e s =>
    rw [hx] at hm
    intro hc
    obtain ⟨e', ⟨N, h1⟩, h2⟩ := hm hc
    refine ⟨e', ⟨N + 2, fun n hn => ?_⟩, h2⟩
    obtain ⟨k, rfl⟩ : ∃ k, n = k + 1 + 1 := ⟨n - 2, by omega⟩
    show Ref.run W C Γ' (k + 1 + 1) .unionload v (.union us) () = _
    have h3 : Ref.run W C Γ' (k + 1) h v u () = _ := h1 (k + 1) (by omega)
    rw [key k, h3]
    have : e'.isTL = false := by unfold Exc.isTL; rw [h2]; rfl
    simp [this]
  | div => trivial

theorem Up.optional (hd : C.Default) (hb : .none ∈ C.basictypes) {ts : List Ty} {t : Ty} (ho : OptionalOf ts t) (hc : Compound Γ t) {h : Handler}
    (hp : pick W C t = .ok h) {v : Val} (hv : v ≠ .none) {n : Nat} {m : Nat → R Val} (hm : Up (Grown W V) (Ref.run W C Γ n h v t) m) :
    Up (Grown W V) (Ref.unionload W C (Ref.run W C Γ n) v (.union ts)) m := by
  have h0 : Ref.run W C Γ n h v t () ≠ .div → Ref.run W C Γ n .noneload v (.prim .none) () = .err (mkExc .tlValue .notNone v (.prim .none)) () := by
    intro hne
    cases n with
    | zero => exact absurd rfl hne
    | succ n => exact noneload_err hv
  unfold Up at *
  rw [optional_eq (rec := Ref.run W C Γ n) hd hb ho hc hp hv h0 rfl]
  cases hx : Ref.run W C Γ n h v t () with
  | ok a s => rw [hx] at hm; exact hm
  | err e s =>
    rw [hx] at hm
    dsimp only
    split
    · intro he; simp [mkExcSubs] at he
    · exact hm
  | div => trivial

/-- What the load into the old type returns, the load into the new type returns in its new version. -/
theorem Newer.up (hd : C.Default) (hatt : ∀ c, Uses W Γ t0 (.obj c) → (W.cls c).kind = .attrs → ∀ f ∈ (W.cls c).fields, ∃ t, FieldTy .attrs f t)
    (hV : ∀ c d, V c d → NewerClass W C V Γ Γ' c d) (hnn : NewerNames W C V Γ Γ' t0) (hold : OldData W C V Γ v0 t0) :
    ∀ n x t t' h h', TL.pick W C t = .ok h → TL.pick W C t' = .ok h' → Reaches W C Γ v0 t0 x t → Newer W C V Γ Γ' t t' →
      Up (Grown W V) (Ref.run W C Γ n h x t) (fun m => Ref.run W C Γ' m h' x t') := by
  have hsame : ∀ n x t h, TL.pick W C t = .ok h → Reaches W C Γ v0 t0 x t → SameNames W Γ Γ' t →
      Up Eq (Ref.run W C Γ n h x t) (fun m => Ref.run W C Γ' m h x t) := by
    intro n x t h hp _ hs
    rw [hs.run hd n h x t (pick_installed hp) .self]
    unfold Up
    cases hx : Ref.run W C Γ' n h x t () with
    | ok a s =>
      refine ⟨a, ⟨n, fun m hm => ?_⟩, rfl⟩
      show Ref.run W C Γ' m h x t () = _
      rw [ref_run_le hm h x t () (by rw [hx]; exact fun h => nomatch h), hx]
    | err e s =>
      intro hc
      refine ⟨e, ⟨n, fun m hm => ?_⟩, hc⟩
      show Ref.run W C Γ' m h x t () = _
      rw [ref_run_le hm h x t () (by rw [hx]; exact fun h => nomatch h), hx]
    | div => trivial
  intro n
  induction n with
  | zero => intro x t t' h h' _ _ _ _; exact trivial
  | succ n ih =>
    intro x t t' h h' hp hp' hre hn
    induction hn generalizing h h' with
    | @same t hs =>
      rw [hp] at hp'; cases hp'
      exact (hsame (n + 1) x t h hp hre hs).mono (fun a b e => by subst e; exact .same)
    | @lit vs vs' hsub =>
      rw [pick_lit hd] at hp hp'; cases hp; cases hp'
      refine Up.step ?_
      show Up _ (ofL (TL.literalload x (.lit vs))) (fun _ => ofL (TL.literalload x (.lit vs')))
      have key : ∀ ws : List Val, (ofL (TL.literalload x (.lit ws)) : R Val) =
          if pyIn x ws then Pure.pure x else M.throw (mkExc .tlValue (.notLiteral (.lit ws)) x (.lit ws)) := by
        intro ws
        unfold literalload
        cases hi : pyIn x ws <;> simp only [hi] <;> rfl
      simp only [key]
      cases hi : pyIn x vs with
      | true =>
        have : pyIn x vs' = true := by
          unfold pyIn at hi ⊢
          rw [List.any_eq_true] at hi ⊢
          obtain ⟨y, hy, he⟩ := hi
          exact ⟨y, hsub y hy, he⟩
        simp only [this, if_true]
        exact Up.pure (Grown.same (v := x))
      | false =>
        simp only [Bool.false_eq_true, if_false]
        exact Up.throw (e := mkExc .tlValue (.notLiteral (.lit vs)) x (.lit vs)) _ (by simp [mkExc])
    | @coll k t u hk hn _ =>
      rw [pick_coll hd] at hp hp'; cases hp; cases hp'
      refine Up.step ?_
      have := Up.iterload (rec := Ref.run W C Γ n) (rec' := Ref.run W C Γ') hd ih hk hn hre
      cases k with
      | list => exact this
      | tuple => exact this
      | set => cases hk
      | frozenset => cases hk
    | tuple hl hn _ =>
      rw [pick_tuple hd] at hp hp'; cases hp; cases hp'
      refine Up.step ?_
      exact Up.tupleload (rec := Ref.run W C Γ n) (rec' := Ref.run W C Γ') hd ih hl hn hre
    | dict hk hn _ =>
      rw [pick_dict hd] at hp hp'; cases hp; cases hp'
      refine Up.step ?_
      exact Up.dictload (rec := Ref.run W C Γ n) (rec' := Ref.run W C Γ') hd ih (hsame n) hk hn hre
    | newtype hn _ =>
      rw [pick_newtype hd] at hp hp'; cases hp; cases hp'
      refine Up.step ?_
      exact Up.newLoad (rec := Ref.run W C Γ n) (rec' := Ref.run W C Γ') hd ih hn hre.newtype
    | @fref m =>
      rw [pick_fref hd] at hp hp'; cases hp; cases hp'
      refine Up.step ?_
      show Up _ (Ref.forwardrefload W C Γ (Ref.run W C Γ n) x (.fref m)) (fun k => Ref.forwardrefload W C Γ' (Ref.run W C Γ' k) x (.fref m))
      unfold Ref.forwardrefload
      cases hΓ : Γ with
      | none => exact Up.throw (e := mkExc .tlBase .frefDisabled x (.fref m)) _ (by simp [mkExc])
      | some f =>
        cases hf : f m with
        | none => simp only [hf]; exact Up.throw _ (by simp [mkExc])
        | some u =>
          cases hΓ' : Γ' with
          | none => rw [hnn.1.2 hΓ'] at hΓ; cases hΓ
          | some f' =>
            obtain ⟨u', h1, h2⟩ := hnn.2 f f' hΓ hΓ' m hre.uses u hf
            simp only [hf, h1]
            subst hΓ; subst hΓ'
            exact Up.newLoad (rec := Ref.run W C (some f) n) (rec' := Ref.run W C (some f')) hd ih h2 (.fref f hre rfl hf)
    | @obj c d hv =>
      rw [pick_obj hd] at hp hp'; cases hp; cases hp'
      refine Up.step ?_
      obtain ⟨info', hi', hnec', he'⟩ := ref_classHandler (C := C) Γ' d (hV c d hv).newHints
      show Up _ (Ref.step W C Γ (Ref.run W C Γ n) (objHandler (W.cls c).kind) x (.obj c)) _
      obtain ⟨info, hi, hnec, he⟩ := ref_classHandler (C := C) Γ c (hatt c hre.uses)
      rw [he]
      simp only [he']
      exact Up.objMangled (rec := Ref.run W C Γ n) (rec' := Ref.run W C Γ') hd ih hv (hV c d hv) hi hi' hnec hnec'
        (fun hW m ft h1 y hm hpk => by
          obtain ⟨f, hf, _, h2⟩ := hi.hints _ _ hm
          exact ref_quiet hd hW hatt n h1 y ft hpk (.field hre.uses hf h2)) hold hre
    | @toOptional t u us hb ho hc hc' hn ihn =>
      rw [pick_union hd] at hp'; cases hp'
      by_cases hv : x = .none
      · subst hv
        exact (hc.bad hd hatt hre.uses (n + 1) h hp).up _
      · obtain ⟨hu, hpu⟩ := hn.pick hd hp
        exact Up.toOptional hd hb ho hc' hpu hv (ihn h hu hp hpu hre)
    | @optional t u ts us hb ho ho' hc hc' hn _ =>
      rw [pick_union hd] at hp hp'; cases hp; cases hp'
      by_cases hv : x = .none
      · subst hv
        have key : ∀ {ws : List Ty} {w : Ty} (rec : Ref.Rec), OptionalOf ws w → Ref.unionload W C rec .none (.union ws) = Pure.pure .none := by
          intro ws w rec hw
          unfold Ref.unionload
          have h1 : C.isBasic (typeOf .none) = true := by simpa [typeOf, Config.isBasic] using hb
          have h2 : ws.contains (typeOf .none) = true := by rcases hw with rfl | rfl <;> simp [typeOf]
          simp only [h1, h2, Bool.and_true, if_true]
        refine Up.step ?_
        show Up _ (Ref.unionload W C (Ref.run W C Γ n) .none (.union ts)) (fun k => Ref.unionload W C (Ref.run W C Γ' k) .none (.union us))
        rw [key _ ho]
        simp only [key _ ho']
        exact Up.pure .same
      · have hpt : ∃ ht, TL.pick W C t = .ok ht := by
          cases hc with
          | obj => exact ⟨_, pick_obj hd _⟩
          | coll => exact ⟨_, pick_coll hd _ _⟩
          | tuple => exact ⟨_, pick_tuple hd _⟩
          | dict => exact ⟨_, pick_dict hd _ _⟩
          | newtype _ => exact ⟨_, pick_newtype hd _ _⟩
          | fref _ _ _ => exact ⟨_, pick_fref hd _⟩
        obtain ⟨ht, hpt⟩ := hpt
        obtain ⟨hu, hpu⟩ := hn.pick hd hpt
        have hmem : t ∈ ts := by rcases ho with rfl | rfl <;> simp
        exact Up.optional hd hb ho hc hpt hv (Up.toOptional hd hb ho' hc' hpu hv (ih x t u ht hu hpt hpu (hre.member hmem) hn))

end TL
