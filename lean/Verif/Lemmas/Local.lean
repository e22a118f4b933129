import Verif.Spec.Local
/-!
# The loader depends on the handler list only through the types it meets

`SameAt m m'`: from every good state the two computations have the same outcome and leave the same state.  Two configurations that differ
in the handler list only, and that select the same handler for every type in a closed set, run the same way on the types of the set.
-/

namespace TL

/-- From every good state the same outcome and the same state. -/
def SameAt (W : World) (C : Config) (F : Names) {α : Type} (m m' : L α) : Prop := ∀ s, Good W C F s → m s = m' s

variable {W : World} {C : Config} {G : Ty → Prop} {F : Names} {α β : Type}

theorem SameAt.rfl' {m : L α} : SameAt W C F m m := fun _ _ => rfl

theorem SameAt.bind {m m' : L α} {f f' : α → L β} {Q : Except Exc α → Prop} (hs : Sat W C F m Q) (hm : SameAt W C F m m')
    (hf : ∀ a, Q (.ok a) → SameAt W C F (f a) (f' a)) : SameAt W C F (m >>= f) (m' >>= f') := by
  intro s hg
  simp only [M.bind_apply]
  rw [← hm s hg]
  have := hs s hg
  unfold Post at this
  cases hr : m s with
  | ok a s' => rw [hr] at this; exact hf a this.2 s' this.1
  | err e s' => rfl
  | div => rfl

theorem SameAt.handle {m m' : L α} {f f' : α → L β} {g g' : Exc → L β} {Q : Except Exc α → Prop} (hs : Sat W C F m Q) (hm : SameAt W C F m m')
    (hf : ∀ a, Q (.ok a) → SameAt W C F (f a) (f' a)) (hg : ∀ e, Q (.error e) → SameAt W C F (g e) (g' e)) :
    SameAt W C F (M.handle m f g) (M.handle m' f' g') := by
  intro s hgd
  simp only [M.handle_apply]
  rw [← hm s hgd]
  have := hs s hgd
  unfold Post at this
  cases hr : m s with
  | ok a s' => rw [hr] at this; exact hf a this.2 s' this.1
  | err e s' => rw [hr] at this; exact hg e this.2 s' this.1
  | div => rfl

theorem SameAt.rescue {m m' : L α} {f f' : Exc → L α} {Q : Except Exc α → Prop} (hs : Sat W C F m Q) (hm : SameAt W C F m m')
    (hf : ∀ e, Q (.error e) → SameAt W C F (f e) (f' e)) : SameAt W C F (M.rescue m f) (M.rescue m' f') := by
  intro s hgd
  simp only [M.catch_apply]
  rw [← hm s hgd]
  have := hs s hgd
  unfold Post at this
  cases hr : m s with
  | ok a s' => rfl
  | err e s' => rw [hr] at this; exact hf e this.2 s' this.1
  | div => rfl

theorem foldl_agree {α β : Type} {f g : β → α → β} (l : List α) (h : ∀ b, ∀ a ∈ l, f b a = g b a) : ∀ b, l.foldl f b = l.foldl g b := by
  induction l with
  | nil => intro b; rfl
  | cons a l ih => intro b; simp only [List.foldl_cons]; rw [h b a (by simp)]; exact ih (fun b a ha => h b a (by simp [ha])) _

section handlers
variable {C' : Config} (hpick : Config.Agree W C C' G)

include hpick in
theorem SameAt.resolve {t : Ty} (hg : G t) (e : Exc) : SameAt W C F (TL.resolve W C t e) (TL.resolve W C' t e) := by
  intro s _
  unfold TL.resolve
  rw [hpick.pick t hg]

/-- The handler found is in the list. -/
theorem Sat.resolveIn (t : Ty) (e : Exc) : Sat W C F (TL.resolve W C t e) (fun o => ∀ h, o = .ok h → Installed C h) :=
  (Sat.resolve t e).mono (fun o ho h hh => by
    subst hh
    cases hp : pick W C t with
    | ok h2 => rw [hp] at ho; cases ho; exact pick_installed hp
    | error c => rw [hp] at ho; cases ho)

variable (hcl : Closed W C G F) {rec rec' : Rec}
  (hsat : ∀ h x t, Installed C h → G t → Sat W C F (rec h x t) (fun _ => True))
  (hrec : ∀ h x t, Installed C h → G t → SameAt W C F (rec h x t) (rec' h x t))

include hpick hcl in
theorem Config.Agree.all {ts : List Ty} (hg : G (.union ts)) : ts.all C'.isBasic = ts.all C.isBasic := by
  rw [Bool.eq_iff_iff, List.all_eq_true, List.all_eq_true]
  exact ⟨fun h u hu => (hpick.basic u (hcl.union ts hg u hu)) ▸ h u hu, fun h u hu => (hpick.basic u (hcl.union ts hg u hu)).symm ▸ h u hu⟩

include hpick hcl in
theorem Config.Agree.iterElem {h : Handler} {et : Ty} (hg : G et) (x : Val) : TL.iterElem C' rec' h et x = TL.iterElem C rec' h et x := by
  unfold TL.iterElem
  cases et <;> try rfl
  · dsimp only; rw [hpick.basic _ hg]
  · dsimp only; rw [hpick.all hcl hg]

include hpick hcl in
theorem Config.Agree.usesMap {et : Ty} (hg : G et) : TL.usesMap C' et = TL.usesMap C et := by
  unfold TL.usesMap
  cases et <;> try rfl
  · dsimp only; rw [hpick.basic _ hg]
  · dsimp only; rw [hpick.all hcl hg]

include hpick hcl in
theorem Config.Agree.sortArgs {ts : List Ty} (hg : G (.union ts)) : TL.sortArgs C' ts = TL.sortArgs C ts := by
  unfold TL.sortArgs
  congr 1 <;> exact List.filter_congr (fun u hu => by rw [hpick.basic u (hcl.union ts hg u hu)])

include hpick in
theorem Config.Agree.dataclassInfo {c : Nat} (hg : G (.obj c)) : TL.dataclassInfo C' (W.cls c) = TL.dataclassInfo C (W.cls c) := by
  have h := hpick.names c hg
  unfold TL.dataclassInfo
  congr 1
  exact foldl_agree _ (fun acc f hf => by rw [h f hf]) _

include hpick in
theorem Config.Agree.attrInfo {c : Nat} (hg : G (.obj c)) (hints : List (String × Ty)) :
    TL.attrInfo W C' (W.cls c).fields hints = TL.attrInfo W C (W.cls c).fields hints := by
  have h := hpick.names c hg
  unfold TL.attrInfo
  congr 1
  exact foldl_agree _ (fun acc f hf => by rw [h f hf]) _

include hpick hcl hsat hrec

omit hsat in
theorem SameAt.loadWith (x : Val) {t : Ty} (hg : G t) (a : Option Annotation) :
    SameAt W C F (TL.loadWith W C rec x t a) (TL.loadWith W C' rec' x t a) := by
  intro s hgd
  have key : loadResolve W C x t = loadResolve W C' x t := by
    unfold loadResolve; rw [hpick.pick t hg]
  unfold TL.loadWith
  rw [← key]
  simp only [M.bind_apply, M.catch_apply]
  have hk := loadResolve_eq (v := x) (t := t) hgd.coh
  rw [hk]
  cases hp : pick W C t with
  | error c => rfl
  | ok h =>
    dsimp only
    rw [hrec h x t (pick_installed hp) hg _ (hgd.cacheReg hcl hg hp)]

omit hpick hrec in
theorem Sat.loadAny (x : Val) {t : Ty} (hg : G t) (a : Option Annotation) : Sat W C F (TL.loadWith W C rec x t a) (fun _ => True) :=
  (Sat.loadWith hcl (P := fun _ _ _ _ => True) hsat x hg a).mono (fun _ _ => trivial)

omit hsat in
theorem SameAt.iterElem {h : Handler} (hin : Installed C h) {et : Ty} (hg : G et) (x : Val) :
    SameAt W C F (TL.iterElem C rec h et x) (TL.iterElem C' rec' h et x) := by
  rw [hpick.iterElem hcl hg x]
  by_cases hp : PassThrough C et x
  · rw [iterElem_pass _ _ hp, iterElem_pass _ _ hp]; exact SameAt.rfl'
  · rw [iterElem_call _ _ hp, iterElem_call _ _ hp]; exact hrec h x et hin hg

theorem SameAt.iterElems {h : Handler} (hin : Installed C h) (k : SeqKind) {et : Ty} (hg : G et) (v : Val) (t : Ty) (xs : List Val) :
    ∀ i acc, SameAt W C F (TL.iterElems W C rec h k et v t xs i acc) (TL.iterElems W C' rec' h k et v t xs i acc) := by
  induction xs with
  | nil => intro i acc; exact SameAt.rfl'
  | cons x xs ih =>
    intro i acc
    unfold TL.iterElems
    refine SameAt.handle (Sat.iterElem (P := fun _ _ _ _ => True) hsat hin hg x) (SameAt.iterElem hpick hcl hrec hin hg x) ?_ ?_
    · intro y _
      cases collAdd W k acc y with
      | error c => exact SameAt.rfl'
      | ok acc' => exact ih _ _
    · intro e _; rw [hpick.usesMap hcl hg]; exact SameAt.rfl'

theorem SameAt.iterload (k : SeqKind) (v : Val) (t : Ty) (hg : G t) :
    SameAt W C F (TL.iterload W C rec k v t) (TL.iterload W C' rec' k v t) := by
  unfold TL.iterload
  split
  · exact SameAt.rfl'
  · cases t <;> try exact SameAt.rfl'
    rename_i et
    have hge := hcl.coll _ _ hg
    dsimp only
    refine SameAt.bind (Sat.resolveIn et _) (SameAt.resolve hpick hge _) ?_
    intro h hin
    cases pyIter v with
    | none => exact SameAt.rfl'
    | some xs =>
      dsimp only
      exact SameAt.bind (Sat.iterElems (P := fun _ _ _ _ => True) hsat (hin h rfl) k hge v _ xs 0 [])
        (SameAt.iterElems hpick hcl hsat hrec (hin h rfl) k hge v _ xs 0 []) (fun _ _ => SameAt.rfl')

omit hpick hcl hsat hrec in
theorem Sat.tupHandlerIn (u : Ty) : Sat W C F (TL.tupHandler W C u) (fun o => ∀ h, o = .ok h → Installed C h) := by
  apply Sat.of_post
  intro s hs
  refine (tupHandler_spec (C := C) hs.coh).mono ?_ ?_
  · rintro h s' ⟨rfl, hp⟩; exact ⟨⟨Ext.refl _, rfl⟩, fun h' hh => by cases hh; exact pick_installed hp⟩
  · rintro e s' ⟨rfl, c, hp, rfl⟩; exact ⟨⟨Ext.refl _, rfl⟩, fun h' hh => by cases hh⟩

omit hpick hcl hrec in
theorem Sat.tupCall (x : Val) {u : Ty} (hg : G u) :
    Sat W C F (TL.tupHandler W C u >>= fun h => if C.isBasic u && typeOf x == u then Pure.pure x else rec h x u) (fun _ => True) := by
  refine Sat.bind (Sat.tupHandlerIn u) (fun h hin => ?_) (fun _ _ => trivial)
  split
  · exact Sat.pure trivial
  · exact hsat h x u (hin h rfl) hg

omit hcl hsat in
theorem SameAt.tupElem (x : Val) {u : Ty} (hg : G u) :
    SameAt W C F (TL.tupHandler W C u >>= fun h => if C.isBasic u && typeOf x == u then Pure.pure x else rec h x u)
      (TL.tupHandler W C' u >>= fun h => if C'.isBasic u && typeOf x == u then Pure.pure x else rec' h x u) := by
  have h1 : tupHandler W C u = tupHandler W C' u := by unfold tupHandler; rw [hpick.pick u hg]
  rw [← h1, hpick.basic u hg]
  refine SameAt.bind (Sat.tupHandlerIn u) SameAt.rfl' (fun h hin => ?_)
  split
  · exact SameAt.rfl'
  · exact hrec h x u (hin h rfl) hg

theorem SameAt.tupElems (v : Val) (t : Ty) (xs : List Val) : ∀ (us : List Ty) (i : Nat), (∀ u ∈ us, G u) →
    SameAt W C F (TL.tupElems W C rec v t xs us i) (TL.tupElems W C' rec' v t xs us i) := by
  induction xs with
  | nil => intro us i _; unfold TL.tupElems; exact SameAt.rfl'
  | cons x xs ih =>
    intro us i hg
    cases us with
    | nil => unfold TL.tupElems; exact SameAt.rfl'
    | cons u us =>
      have hgu := hg u (by simp)
      unfold TL.tupElems
      have hcall : Sat W C F (TL.tupHandler W C u >>= fun h => if C.isBasic u && typeOf x == u then Pure.pure x else rec h x u) (fun _ => True) :=
        Sat.tupCall hsat x hgu
      refine SameAt.bind (Q := fun _ => True) ?_ ?_ ?_
      · exact Sat.rescue hcall (fun _ _ => trivial) (fun _ _ => Sat.throw trivial)
      · exact SameAt.rescue hcall (SameAt.tupElem hpick hrec x hgu) (fun _ _ => SameAt.rfl')
      · intro y _
        have hg' : ∀ w ∈ us, G w := fun w hw => hg w (by simp [hw])
        exact SameAt.bind (Sat.tupElems hcl (P := fun _ _ _ _ => True) hsat v t xs us _ hg') (ih us _ hg') (fun _ _ => SameAt.rfl')

theorem SameAt.tupleload (v : Val) (t : Ty) (hg : G t) :
    SameAt W C F (TL.tupleload W C rec v t) (TL.tupleload W C' rec' v t) := by
  cases t
  case coll k t =>
    cases k
    case tuple => exact SameAt.iterload hpick hcl hsat hrec _ _ _ hg
    all_goals exact SameAt.rfl'
  case tuple ts =>
    have hgu : ∀ u ∈ ts, G u := hcl.tuple ts hg
    unfold TL.tupleload
    dsimp only
    rw [hpick.failonextra]
    split
    · exact SameAt.rfl'
    · split
      · exact SameAt.rfl'
      · rename_i xs _
        split
        · exact SameAt.rfl'
        · split
          · exact SameAt.rfl'
          · exact SameAt.bind (Sat.tupElems hcl (P := fun _ _ _ _ => True) hsat v _ xs ts 0 hgu)
              (SameAt.tupElems hpick hcl hsat hrec v _ xs ts 0 hgu) (fun _ _ => SameAt.rfl')
  all_goals exact SameAt.rfl'

omit hcl hsat in
theorem SameAt.part {hh : Handler} {t : Ty} (x : Val) (hin : Installed C hh) (hg : G t) :
    SameAt W C F (if (C.isBasic t && isInstTy t x) = true then (Pure.pure x : L Val) else rec hh x t)
      (if (C'.isBasic t && isInstTy t x) = true then (Pure.pure x : L Val) else rec' hh x t) := by
  rw [hpick.basic t hg]
  split
  · exact SameAt.rfl'
  · exact hrec hh x t hin hg

omit hpick hcl hrec in
theorem Sat.partAny {hh : Handler} {t : Ty} (x : Val) (hin : Installed C hh) (hg : G t) :
    Sat W C F (if (C.isBasic t && isInstTy t x) = true then (Pure.pure x : L Val) else rec hh x t) (fun _ => True) := by
  split
  · exact Sat.pure trivial
  · exact hsat hh x t hin hg

omit hcl in
theorem SameAt.dictFast {kt vt : Ty} (hk : G kt) (hv : G vt) {keyF : Handler} {valF : Option Handler} (hki : Installed C keyF)
    (hvi : ∀ h, valF = some h → Installed C h) (kvs : List (Val × Val)) : ∀ acc,
    SameAt W C F (TL.dictFast W C rec kt vt keyF valF kvs acc) (TL.dictFast W C' rec' kt vt keyF valF kvs acc) := by
  induction kvs with
  | nil => intro acc; exact SameAt.rfl'
  | cons p kvs ih =>
    obtain ⟨k, x⟩ := p
    intro acc
    rw [dictFast_cons, dictFast_cons]
    refine SameAt.bind (Sat.partAny hsat k hki hk) (SameAt.part hpick hrec k hki hk) (fun k' _ => ?_)
    refine SameAt.bind (Q := fun _ => True) ?_ ?_ (fun x' _ => ?_)
    · cases valF with
      | some h => exact Sat.partAny hsat x (hvi h rfl) hv
      | none =>
        dsimp only
        split
        · exact Sat.pure trivial
        · exact Sat.throw trivial
    · cases valF with
      | some h => exact SameAt.part hpick hrec x (hvi h rfl) hv
      | none => rw [hpick.basic vt hv]; exact SameAt.rfl'
    · split
      · exact ih _
      · exact SameAt.rfl'

theorem SameAt.dictSlow {kt vt : Ty} (hk : G kt) (hv : G vt) (kvs : List (Val × Val)) : ∀ acc,
    SameAt W C F (TL.dictSlow W C rec kt vt kvs acc) (TL.dictSlow W C' rec' kt vt kvs acc) := by
  induction kvs with
  | nil => intro acc; exact SameAt.rfl'
  | cons p kvs ih =>
    obtain ⟨k, x⟩ := p
    intro acc
    unfold TL.dictSlow
    refine SameAt.bind (Sat.loadAny hcl hsat k hk _) (SameAt.loadWith hpick hcl hrec k hk _) (fun k' _ => ?_)
    refine SameAt.bind (Sat.loadAny hcl hsat x hv _) (SameAt.loadWith hpick hcl hrec x hv _) (fun x' _ => ?_)
    split
    · exact ih _
    · exact SameAt.rfl'

omit hcl hsat hrec in
theorem SameAt.dictValueHandler (v : Val) (t : Ty) {vt : Ty} (hg : G vt) (kf : Handler) :
    SameAt W C F (TL.dictValueHandler W C v t vt kf) (TL.dictValueHandler W C' v t vt kf) := by
  have h1 : TL.resolve W C vt (mkExc .tlValue (.noHandlerIn vt t) v vt) = TL.resolve W C' vt (mkExc .tlValue (.noHandlerIn vt t) v vt) := by
    unfold TL.resolve; rw [hpick.pick vt hg]
  unfold TL.dictValueHandler
  rw [h1]
  exact SameAt.rfl'

theorem SameAt.dictload (v : Val) (t : Ty) (hg : G t) :
    SameAt W C F (TL.dictload W C rec v t) (TL.dictload W C' rec' v t) := by
  cases t <;> try exact SameAt.rfl'
  rename_i kt vt
  have hgk := hcl.dictKey _ _ hg
  have hgv := hcl.dictVal _ _ hg
  unfold TL.dictload
  dsimp only
  refine SameAt.bind (Sat.resolveIn kt _) (SameAt.resolve hpick hgk _) (fun keyF0 hk0 => ?_)
  have hk0 := hk0 keyF0 rfl
  refine SameAt.bind (Sat.dictValueHandler v _ vt keyF0) (SameAt.dictValueHandler hpick v _ hgv keyF0) ?_
  rintro ⟨keyF, valF⟩ ⟨hvh, hpv, hcase⟩
  have hin : Installed C keyF ∧ ∀ h, valF = some h → Installed C h := by
    rcases hcase with h | h <;> cases h
    · exact ⟨hk0, fun h he => by cases he; exact pick_installed hpv⟩
    · exact ⟨pick_installed hpv, fun h he => by cases he⟩
  dsimp only
  have he : dictequivalence C' v = dictequivalence C v := by unfold TL.dictequivalence; rw [hpick.dictequivalence]
  rw [he]
  cases items (dictequivalence C v) with
  | none => exact SameAt.rfl'
  | some kvs =>
    dsimp only
    have hfast := Sat.dictFast hcl (P := fun _ _ _ _ => True) hsat hgk hgv hin.1 hin.2 kvs []
    refine SameAt.rescue (Q := fun _ => True) (Sat.bind hfast (fun _ _ => Sat.pure trivial) (fun _ _ => trivial)) ?_ (fun e _ => ?_)
    · exact SameAt.bind hfast (SameAt.dictFast hpick hsat hrec hgk hgv hin.1 hin.2 kvs []) (fun _ _ => SameAt.rfl')
    · have hslow := Sat.dictSlow hcl (P := fun _ _ _ _ => True) hsat hgk hgv kvs []
      refine SameAt.rescue (Q := fun _ => True) (Sat.bind hslow (fun _ _ => Sat.pure trivial) (fun _ _ => trivial)) ?_ (fun _ _ => SameAt.rfl')
      exact SameAt.bind hslow (SameAt.dictSlow hpick hcl hsat hrec hgk hgv kvs []) (fun _ _ => SameAt.rfl')

omit hcl in
theorem SameAt.objFields {c : Nat} {info : ObjInfo} (hi : InfoFor W C c info) (hg : ∀ f ∈ (W.cls c).fields, ∀ t, FieldTy (W.cls c).kind f t → G t)
    (v : Val) (t : Ty) (kvs : List (Val × Val)) : ∀ acc,
    SameAt W C F (TL.objFields W C rec info v t kvs acc) (TL.objFields W C' rec' info v t kvs acc) := by
  induction kvs with
  | nil => intro acc; exact SameAt.rfl'
  | cons p kvs ih =>
    obtain ⟨k, x⟩ := p
    intro acc
    unfold TL.objFields
    cases k
    case str n =>
      dsimp only
      split
      · cases hh : aget info.hints n with
        | none => exact SameAt.rfl'
        | some ft =>
          have hgt : G ft := by
            obtain ⟨f, hf, _, hty⟩ := hi.hints n ft hh
            exact hg f hf ft hty
          dsimp only
          refine SameAt.bind (Sat.resolveIn ft _) (SameAt.resolve hpick hgt _) (fun h hin => ?_)
          have hin := hin h rfl
          refine SameAt.bind (Q := fun _ => True) ?_ ?_ (fun y _ => ih _)
          · refine Sat.rescue (hsat h x ft hin hgt) (fun _ _ => trivial) (fun e _ => ?_)
            split <;> exact Sat.throw trivial
          · exact SameAt.rescue (hsat h x ft hin hgt) (hrec h x ft hin hgt) (fun _ _ => SameAt.rfl')
      · exact ih _
    all_goals exact ih _

omit hcl in
theorem SameAt.objloader {c : Nat} {info : ObjInfo} (hi : InfoFor W C c info) (hg : ∀ f ∈ (W.cls c).fields, ∀ t, FieldTy (W.cls c).kind f t → G t)
    (v : Val) : SameAt W C F (TL.objloader W C rec info v c) (TL.objloader W C' rec' info v c) := by
  unfold TL.objloader
  have he : objItems C' v = objItems C v := by unfold objItems; rw [hpick.dictequivalence]
  rw [he, hpick.failonextra]
  split
  · exact SameAt.rfl'
  · split
    · exact SameAt.rfl'
    · split
      · exact SameAt.rfl'
      · exact SameAt.bind (Sat.objFields (P := fun _ _ _ _ => True) hsat hi hg _ _ _ _) (SameAt.objFields hpick hsat hrec hi hg _ _ _ _)
          (fun _ _ => SameAt.rfl')

omit hpick hcl hsat hrec in
theorem Sat.mangleAny (tr : List (String × String)) (v : Val) (t : Ty) : Sat W C F (mangleOrRaise C tr v t) (fun _ => True) := by
  unfold mangleOrRaise
  repeat' split
  all_goals first | exact Sat.pure trivial | exact Sat.throw trivial

omit hcl in
theorem SameAt.objMangled {c : Nat} {info : ObjInfo} (hi : InfoFor W C c info) (hg : ∀ f ∈ (W.cls c).fields, ∀ t, FieldTy (W.cls c).kind f t → G t)
    (v : Val) : SameAt W C F (mangleOrRaise C info.transforms v (.obj c) >>= fun v' => TL.objloader W C rec info v' c)
      (mangleOrRaise C' info.transforms v (.obj c) >>= fun v' => TL.objloader W C' rec' info v' c) :=
  SameAt.bind (Sat.mangleAny _ _ _) (by unfold mangleOrRaise; rw [hpick.failonextra]; exact SameAt.rfl') (fun v' _ => SameAt.objloader hpick hsat hrec hi hg v')

omit hcl in
theorem SameAt.unionTry (v : Val) (t : Ty) (us : List Ty) (hg : ∀ u ∈ us, G u) : ∀ (c : Nat) (r : Val) (es : List Exc),
    SameAt W C F (TL.unionTry W C rec v t us c r es) (TL.unionTry W C' rec' v t us c r es) := by
  induction us with
  | nil => intros; exact SameAt.rfl'
  | cons u us ih =>
    intro c r es
    have hgu := hg u (by simp)
    have ih := ih (fun w hw => hg w (by simp [hw]))
    unfold TL.unionTry
    refine SameAt.handle (Q := fun _ => True) ?_ ?_ (fun x _ => ?_) (fun e _ => ?_)
    · exact Sat.bind (Sat.resolveIn u _) (fun h hin => hsat h v u (hin h rfl) hgu) (fun _ _ => trivial)
    · exact SameAt.bind (Sat.resolveIn u _) (SameAt.resolve hpick hgu _) (fun h hin => hrec h v u (hin h rfl) hgu)
    · rw [hpick.uniondebugconflict]
      split
      · exact ih _ _ _
      · exact SameAt.rfl'
    · split
      · exact ih _ _ _
      · exact SameAt.rfl'

theorem SameAt.unionload (v : Val) (t : Ty) (hg : G t) :
    SameAt W C F (TL.unionload W C rec v t) (TL.unionload W C' rec' v t) := by
  cases t <;> try exact SameAt.rfl'
  rename_i ts
  unfold TL.unionload
  dsimp only
  have he : (C'.isBasic (typeOf v) && ts.contains (typeOf v)) = (C.isBasic (typeOf v) && ts.contains (typeOf v)) := by
    cases hc : ts.contains (typeOf v) with
    | false => simp
    | true => rw [hpick.basic _ (hcl.union ts hg _ (List.contains_iff_mem.1 hc))]
  rw [he]
  split
  · exact SameAt.rfl'
  · refine SameAt.bind (Sat.unionOrder v ts) (by unfold unionOrder; rw [hpick.sortArgs hcl hg]; exact SameAt.rfl') (fun order hord => ?_)
    have hgo : ∀ u ∈ order, G u := fun u hu => hcl.union ts hg u (hord.perm.mem_iff.1 hu)
    exact SameAt.bind (Sat.unionTry hcl (P := fun _ _ _ _ => True) hsat v _ order 0 .none [] hgo)
      (SameAt.unionTry hpick hsat hrec v _ order hgo 0 .none []) (fun _ _ => SameAt.rfl')

theorem SameAt.enumHints (v : Val) (e : Nat) (us : List Ty) (hg : ∀ u ∈ us, G u) : ∀ es,
    SameAt W C F (TL.enumHints W C rec v e us es) (TL.enumHints W C' rec' v e us es) := by
  induction us with
  | nil => intros; exact SameAt.rfl'
  | cons u us ih =>
    intro es
    have hgu := hg u (by simp)
    unfold TL.enumHints
    have hl := Sat.loadAny hcl hsat v hgu (some (.union u))
    refine SameAt.rescue (Q := fun _ => True) ?_ ?_ (fun _ _ => ih (fun w hw => hg w (by simp [hw])) _)
    · refine Sat.bind hl (fun x _ => ?_) (fun _ _ => trivial)
      split
      · exact Sat.pure trivial
      · exact Sat.throw trivial
    · exact SameAt.bind hl (SameAt.loadWith hpick hcl hrec v hgu _) (fun _ _ => SameAt.rfl')

theorem SameAt.enumload (v : Val) (t : Ty) (hg : G t) :
    SameAt W C F (TL.enumload W C rec v t) (TL.enumload W C' rec' v t) := by
  cases t <;> try exact SameAt.rfl'
  rename_i e
  unfold TL.enumload
  dsimp only
  split
  · exact SameAt.rfl'
  · exact SameAt.enumHints hpick hcl hsat hrec v e _ (hcl.enum e hg) []

omit hsat in
theorem SameAt.forwardrefload (v : Val) (t : Ty) :
    SameAt W C F (TL.forwardrefload W C rec v t) (TL.forwardrefload W C' rec' v t) := by
  cases t <;> try exact SameAt.rfl'
  rename_i n
  intro s hgd
  unfold TL.forwardrefload
  simp only [M.bind_apply, M.get_apply]
  cases hf : s.frefs with
  | none => rfl
  | some fr =>
    dsimp only
    cases hn : aget fr n with
    | none => rfl
    | some u => exact SameAt.loadWith hpick hcl hrec v (hcl.bound n u (hgd.bound n u ⟨fr, hf, hn⟩)) _ s hgd

theorem SameAt.script (p : Script) (hp : ∀ x u, p.Asks x u → G u) :
    SameAt W C F (p.run (TL.loadWith W C rec)) (p.run (TL.loadWith W C' rec')) := by
  induction p with
  | ret v => exact SameAt.rfl'
  | raise e => exact SameAt.rfl'
  | call v t a next ih =>
    have hgt := hp v t .here
    exact SameAt.handle (Sat.loadAny hcl hsat v hgt a) (SameAt.loadWith hpick hcl hrec v hgt a)
      (fun r _ => ih (.ok r) (fun x u h => hp x u (.later h))) (fun e _ => ih (.error e) (fun x u h => hp x u (.later h)))

theorem SameAt.step (h : Handler) (v : Val) (t : Ty) (hin : Installed C h) (hg : G t) :
    SameAt W C F (TL.step W C rec h v t) (TL.step W C' rec' h v t) := by
  cases h
  case unionload => exact SameAt.unionload hpick hcl hsat hrec _ _ hg
  case custom i => exact SameAt.script hpick hcl hsat hrec _ (hcl.custom i hin v t hg)
  case enumload => exact SameAt.enumload hpick hcl hsat hrec _ _ hg
  case tupleload => exact SameAt.tupleload hpick hcl hsat hrec _ _ hg
  case listload => exact SameAt.iterload hpick hcl hsat hrec _ _ _ hg
  case setload => exact SameAt.iterload hpick hcl hsat hrec _ _ _ hg
  case frozensetload => exact SameAt.iterload hpick hcl hsat hrec _ _ _ hg
  case dictload => exact SameAt.dictload hpick hcl hsat hrec _ _ hg
  case forwardrefload => exact SameAt.forwardrefload hpick hcl hrec _ _
  case newtypeload =>
    cases t <;> try exact SameAt.rfl'
    exact SameAt.loadWith hpick hcl hrec _ (hcl.newtype _ _ hg) _
  case namedtupleload =>
    cases t <;> try exact SameAt.rfl'
    rename_i c
    by_cases hk : (W.cls c).kind = .namedtuple
    · show SameAt W C F (TL.namedtupleload W C rec v (.obj c)) (TL.namedtupleload W C' rec' v (.obj c))
      rw [namedtupleload_eq _ hk, namedtupleload_eq (C := C') _ hk]
      exact SameAt.objloader hpick hsat hrec (infoFor_namedtuple hk) (hcl.field c hg) v
    · simp only [TL.step, TL.namedtupleload, if_neg hk]; exact SameAt.rfl'
  case dataclassload =>
    cases t <;> try exact SameAt.rfl'
    rename_i c
    by_cases hk : (W.cls c).kind = .dataclass
    · show SameAt W C F (TL.dataclassload W C rec v (.obj c)) (TL.dataclassload W C' rec' v (.obj c))
      rw [dataclassload_eq _ hk, dataclassload_eq (C := C') _ hk]
      refine SameAt.bind (Q := fun o => o = .ok (dataclassInfo C (W.cls c))) ?_ (by unfold dataclassCached; rw [hpick.dataclassInfo hg]; exact SameAt.rfl') (fun info hinfo => ?_)
      · apply Sat.of_post
        intro s hgd
        unfold dataclassCached
        rw [post_bind, post_get]
        cases ho : aget s.objc c with
        | some i => exact ⟨⟨Ext.refl s, rfl⟩, by rw [hgd.coh.objc c i ho]⟩
        | none => exact ⟨⟨Ext.objc ho, rfl⟩, rfl⟩
      · cases hinfo
        exact SameAt.objMangled hpick hsat hrec (infoFor_dataclass hk) (hcl.field c hg) v
    · simp only [TL.step, TL.dataclassload, if_neg hk]; exact SameAt.rfl'
  case typeddictload =>
    cases t <;> try exact SameAt.rfl'
    rename_i c
    by_cases hk : (W.cls c).kind = .typeddict
    · show SameAt W C F (TL.typeddictload W C rec v (.obj c)) (TL.typeddictload W C' rec' v (.obj c))
      rw [typeddictload_eq _ hk, typeddictload_eq (C := C') _ hk]
      refine SameAt.bind (Q := fun _ => True) (fun s hgd => ⟨hgd, trivial⟩) SameAt.rfl' (fun s0 _ => ?_)
      refine SameAt.bind (Q := fun _ => True) ?_ SameAt.rfl' (fun _ _ => ?_)
      · apply Sat.of_post
        intro s hgd
        rw [post_modify]
        unfold rewriteAnnotations
        split
        · exact ⟨⟨Ext.rew, rfl⟩, trivial⟩
        · exact ⟨⟨Ext.refl s, rfl⟩, trivial⟩
      · exact SameAt.objloader hpick hsat hrec (infoFor_typeddict hk _) (hcl.field c hg) v
    · simp only [TL.step, TL.typeddictload, if_neg hk]; exact SameAt.rfl'
  case attrload =>
    cases t <;> try exact SameAt.rfl'
    rename_i c
    by_cases hk : (W.cls c).kind = .attrs
    · show SameAt W C F (TL.attrload W C rec v (.obj c)) (TL.attrload W C' rec' v (.obj c))
      rw [attrload_eq _ hk, attrload_eq (C := C') _ hk]
      cases hh : attrHints (W.cls c).fields with
      | error e => exact SameAt.rfl'
      | ok hints =>
        dsimp only
        rw [hpick.attrInfo hg]
        exact SameAt.objMangled hpick hsat hrec (infoFor_attrs hk hh) (hcl.field c hg) v
    · simp only [TL.step, TL.attrload, if_neg hk]; exact SameAt.rfl'
  case basicload =>
    show SameAt W C F (TL.basicload W C v t) (TL.basicload W C' v t)
    unfold TL.basicload; rw [hpick.basiccast]; exact SameAt.rfl'
  all_goals exact SameAt.rfl'

end handlers

/-- Two handler lists that agree on a closed set of types give the same runs. -/
theorem SameAt.run {C' : Config} (hpick : Config.Agree W C C' G) (hcl : Closed W C G F) (n : Nat) :
    ∀ h v t, Installed C h → G t → SameAt W C F (TL.run W C n h v t) (TL.run W C' n h v t) := by
  induction n with
  | zero => intro h v t _ _; exact SameAt.rfl'
  | succ n ih =>
    exact fun h v t hin hg => SameAt.step hpick hcl (Sat.run hcl (P := fun _ _ _ _ => True) (fun _ _ _ _ _ _ => trivial) n) ih h v t hin hg

end TL
