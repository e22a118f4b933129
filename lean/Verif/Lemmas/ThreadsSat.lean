import Verif.Lemmas.Threads
import Verif.Lemmas.Sem
/-!
# The outcomes of a call among others

`Sat` (Lemmas/Step.lean) for programs that share the loader: whatever the other threads do (within the invariant), the outcomes of a handler call
are those listed by `StepSem`.
-/

namespace TL

set_option linter.unusedSectionVars false

variable {W : World} {C : Config} {G : Ty → Prop} {F : String → Ty → Prop} {N : Prop} {α β : Type}

/-- The caches are coherent, the known names are in `F`, and forward references are disabled iff `N`. -/
structure Fine (W : World) (C : Config) (F : String → Ty → Prop) (N : Prop) (s : LState) : Prop where
  coh : Coh W C s
  bound : ∀ n t, Bound s n t → F n t
  off : s.frefs = none ↔ N

theorem Fine.setIdx {s : LState} (h : Fine W C F N s) {t : Ty} {hd : Handler} (hp : pick W C t = .ok hd) : Fine W C F N { s with idx := aset s.idx t hd } :=
  ⟨h.coh.setIdx hp, fun n t ⟨fr, h1, h2⟩ => h.bound n t ⟨fr, h1, h2⟩, h.off⟩

/-- The outcome of a finished program. -/
def Except.ofRes (Q : Except Exc α → Prop) : Res Unit Exc α → Prop
  | .ok a _ => Q (.ok a)
  | .err e _ => Q (.error e)
  | .div => True

/-- Whatever the others do, every outcome of `m` satisfies `Q`. -/
def TSat (W : World) (C : Config) (F : String → Ty → Prop) (N : Prop) (m : Prog α) (Q : Except Exc α → Prop) : Prop :=
  Safely (Fine W C F N) (Except.ofRes Q) m

theorem TSat.pure {a : α} {Q : Except Exc α → Prop} (h : Q (.ok a)) : TSat W C F N (pure a : Prog α) Q := fun _ => h
theorem TSat.raise {e : Exc} {Q : Except Exc α → Prop} (h : Q (.error e)) : TSat W C F N (Prog.raise e : Prog α) Q := fun _ => h
theorem TSat.mono {m : Prog α} {Q Q' : Except Exc α → Prop} (h : TSat W C F N m Q) (hq : ∀ o, Q o → Q' o) : TSat W C F N m Q' :=
  fun s => (h s).weaken (fun r hr => by cases r <;> first | exact hq _ hr | trivial)
theorem TSat.bind {m : Prog α} {f : α → Prog β} {Q : Except Exc α → Prop} {Q' : Except Exc β → Prop} (hm : TSat W C F N m Q)
    (hf : ∀ a, Q (.ok a) → TSat W C F N (f a) Q') (he : ∀ e, Q (.error e) → Q' (.error e)) : TSat W C F N (m >>= f) Q' :=
  fun s => (hm s).bind (fun a h => hf a h) (fun e h => he e h) (fun _ => trivial)
theorem TSat.rescue {m : Prog α} {f : Exc → Prog α} {Q Q' : Except Exc α → Prop} (hm : TSat W C F N m Q)
    (ho : ∀ a, Q (.ok a) → Q' (.ok a)) (hf : ∀ e, Q (.error e) → TSat W C F N (f e) Q') : TSat W C F N (m.rescue f) Q' :=
  fun s => (hm s).rescue (fun a h => ho a h) (fun e h => hf e h) (fun _ => trivial)
theorem TSat.handle {m : Prog α} {f : α → Prog β} {g : Exc → Prog β} {Q : Except Exc α → Prop} {Q' : Except Exc β → Prop}
    (hm : TSat W C F N m Q) (hf : ∀ a, Q (.ok a) → TSat W C F N (f a) Q') (hg : ∀ e, Q (.error e) → TSat W C F N (g e) Q') :
    TSat W C F N (m.handle f g) Q' :=
  fun s => (hm s).handle (fun a h => hf a h) (fun e h => hg e h) (fun _ => trivial)
theorem TSat.read {f : LState → Prog α} {Q : Except Exc α → Prop} (h : ∀ s, Fine W C F N s → TSat W C F N (f s) Q) : TSat W C F N (Prog.read >>= f) Q :=
  fun _ s _ hs => ⟨hs, RewGrows.refl s, h s hs _⟩
theorem TSat.write {f : LState → LState} {m : Unit → Prog α} {Q : Except Exc α → Prop} (hf : ∀ s, Fine W C F N s → Fine W C F N (f s))
    (hr : ∀ s, RewGrows s (f s)) (h : TSat W C F N (m ()) Q) : TSat W C F N (Prog.write f >>= m) Q := fun _ s _ hs => ⟨hf s hs, hr s, h _⟩
theorem TSat.local' {m : L α} {o : Except Exc α} (hm : m = M.lift o) {Q : Except Exc α → Prop} (h : Q o) : TSat W C F N (Prog.local' m) Q := by
  subst hm
  cases o with
  | ok a => exact fun _ => h
  | error e => exact fun _ => h

/-! ## Lookups -/

theorem TSat.resolve (t : Ty) (m : Exc) : TSat W C F N (T.resolve W C t m) (fun o => o = match pick W C t with
    | .ok h => .ok h
    | .error c => .error (lookupExc m c)) := by
  unfold T.resolve
  refine TSat.read (fun s hs => ?_)
  cases hi : aget s.idx t with
  | some h => rw [hs.coh.idx t h hi]; exact TSat.pure rfl
  | none =>
    cases hp : pick W C t with
    | ok h => exact TSat.write (fun s hs => hs.setIdx hp) (fun _ => RewGrows.refl _) (TSat.pure rfl)
    | error c =>
      dsimp only
      split
      · rename_i h; exact TSat.raise (by simp [lookupExc, h])
      · rename_i h; exact TSat.raise (by simp [lookupExc, h])

theorem TSat.register (hcl : Closed W C G F) {t : Ty} (hg : G t) : TSat W C F N (T.register W t) (fun o => o = .ok ()) := by
  unfold T.register
  refine TSat.read (fun s hs => ?_)
  cases h0 : s.frefs with
  | none => exact TSat.pure rfl
  | some fr0 =>
    cases hn : W.tyName t with
    | none => exact TSat.pure rfl
    | some n =>
      refine TSat.read (fun s' hs' => ?_)
      cases h1 : s'.frefs with
      | none =>
        have := hs.off.2 (hs'.off.1 h1)
        rw [h0] at this; cases this
      | some fr =>
        dsimp only
        cases aget fr n with
        | some _ => exact TSat.pure rfl
        | none =>
          intro _ s _ hs
          refine ⟨⟨hs.coh.setFrefs _, fun m u hb => ?_, ?_⟩, RewGrows.refl s, rfl⟩
          · obtain ⟨fr', h2, h3⟩ := hb
            cases h4 : s.frefs with
            | none => dsimp only at h2; rw [h4] at h2; cases h2
            | some fr2 =>
              dsimp only at h2; rw [h4] at h2; cases h2
              rw [aget_aset] at h3
              split at h3
              · rename_i e; subst e; cases h3; exact hcl.names _ _ hg hn
              · exact hs.bound m u ⟨fr2, h4, h3⟩
          · show s.frefs.map _ = none ↔ N
            rw [← hs.off]; cases s.frefs <;> simp

theorem TSat.loadResolve (hcl : Closed W C G F) (v : Val) {t : Ty} (hg : G t) : TSat W C F N (T.loadResolve W C v t) (fun o => o = match pick W C t with
    | .ok h => .ok h
    | .error c => .error (lookupExc (mkExc .tlType (.noHandler t) v t) c)) := by
  unfold T.loadResolve
  refine TSat.read (fun s hs => ?_)
  cases hi : aget s.idx t with
  | some h => rw [hs.coh.idx t h hi]; exact TSat.pure rfl
  | none =>
    cases hp : pick W C t with
    | ok h =>
      exact TSat.write (fun s hs => hs.setIdx hp) (fun _ => RewGrows.refl _)
        (TSat.bind (TSat.register hcl hg) (fun _ _ => TSat.pure rfl) (fun e h => by cases h))
    | error c =>
      dsimp only
      split
      · rename_i h; exact TSat.raise (by simp [lookupExc, h])
      · rename_i h; exact TSat.raise (by simp [lookupExc, h])

theorem TSat.tupHandler (u : Ty) : TSat W C F N (T.tupHandler W C u) (fun o => o = match pick W C u with
    | .ok h => .ok h
    | .error c => .error (.plain c)) := by
  unfold T.tupHandler
  refine TSat.read (fun s hs => ?_)
  cases hi : aget s.idx u with
  | some h => rw [hs.coh.idx u h hi]; exact TSat.pure rfl
  | none =>
    cases hp : pick W C u with
    | ok h => exact TSat.pure rfl
    | error c => exact TSat.raise rfl

theorem TSat.dictValueHandler (v : Val) (t vt : Ty) (kf : Handler) : TSat W C F N (T.dictValueHandler W C v t vt kf)
    (fun o => match o with
      | .ok p => ∃ hv, pick W C vt = .ok hv ∧ (p = (kf, some hv) ∨ p = (hv, none))
      | .error e => ∃ c, pick W C vt = .error c ∧ e = lookupExc (mkExc .tlValue (.noHandlerIn vt t) v vt) c) := by
  unfold T.dictValueHandler
  refine TSat.read (fun s hs => ?_)
  cases hi : aget s.idx vt with
  | some h => exact TSat.pure ⟨h, hs.coh.idx vt h hi, Or.inl rfl⟩
  | none =>
    cases hp : pick W C vt with
    | ok h => exact TSat.write (fun s hs => hs.setIdx hp) (fun _ => RewGrows.refl _) (TSat.pure ⟨h, rfl, Or.inr rfl⟩)
    | error c =>
      dsimp only
      split
      · rename_i h; exact TSat.raise ⟨c, rfl, by simp [lookupExc, h]⟩
      · rename_i h; exact TSat.raise ⟨c, rfl, by simp [lookupExc, h]⟩

/-! ## Equations of the programs -/

theorem T.iterElem_pass (rec : T.Rec) (h : Handler) {et : Ty} {x : Val} (hp : PassThrough C et x) :
    T.iterElem C rec h et x = Pure.pure x := by
  rcases hp with ⟨p, rfl, hb, hi⟩ | ⟨ts, rfl, hb, hi⟩
  · simp [T.iterElem, Config.isBasic, hb, hi]
  · have : ts.all C.isBasic = true := by simpa using hb
    simp [T.iterElem, this, hi]

theorem T.iterElem_call (rec : T.Rec) (h : Handler) {et : Ty} {x : Val} (hp : ¬ PassThrough C et x) :
    T.iterElem C rec h et x = rec h x et := by
  unfold T.iterElem
  split
  · rename_i p
    split
    · rename_i hb
      rw [if_neg]
      intro hi; exact hp (Or.inl ⟨p, rfl, by simpa [Config.isBasic] using hb, hi⟩)
    · rfl
  · rename_i ts
    split
    · rename_i hb
      rw [if_neg]
      intro hi; exact hp (Or.inr ⟨ts, rfl, by simpa using hb, hi⟩)
    · rfl
  · rfl

theorem T.objFields_other (rec : T.Rec) (info : ObjInfo) (v : Val) (t : Ty) {k : Val} (hk : isFieldKey info.fields k = false) (x : Val)
    (rest : List (Val × Val)) (acc : List (String × Val)) :
    T.objFields W C rec info v t ((k, x) :: rest) acc = T.objFields W C rec info v t rest acc := by
  cases k <;> simp only [T.objFields]
  rw [if_neg]; intro h; simp only [isFieldKey] at hk; rw [hk] at h; cases h

theorem T.objFields_field (rec : T.Rec) (info : ObjInfo) (v : Val) (t : Ty) {m : String} (hm : m ∈ info.fields) (x : Val)
    (rest : List (Val × Val)) (acc : List (String × Val)) :
    T.objFields W C rec info v t ((.str m, x) :: rest) acc =
      match aget info.hints m with
      | none => Prog.raise (.plain (.other 1))
      | some ft => (T.resolve W C ft (mkExc .tlType (.noHandler ft) v ft)) >>= fun h =>
        (Prog.rescue (rec h x ft) (fun e =>
            if e.isTL then Prog.raise (e.push ⟨v, t, some (.field m)⟩) else Prog.raise e)) >>= fun y =>
          T.objFields W C rec info v t rest (aset acc m y) := by
  rw [T.objFields, if_pos (by simpa using hm)]
  cases aget info.hints m <;> rfl

theorem TSat.discCached (ts : List Ty) : TSat W C F N (T.discCached W ts) (fun o => ∃ rew us, us.Perm ts ∧ o = .ok (mkDisc W rew us)) := by
  unfold T.discCached
  refine TSat.read (fun s hs => ?_)
  cases hd : aget s.disc (.union (W.unionKey ts)) with
  | some d =>
    obtain ⟨ts', rew, h1, h2, _⟩ := hs.coh.disc _ _ hd
    have hp : ts'.Perm ts := ((W.unionKey_perm ts').symm.trans (by injection h1 with h1; rw [← h1])).trans (W.unionKey_perm ts)
    exact TSat.pure ⟨rew, ts', hp, by rw [h2]⟩
  | none =>
    intro _ s _ hs
    refine ⟨hs, RewGrows.refl s, ?_⟩
    intro s' hg hs'
    exact ⟨⟨hs'.coh.setDisc ts hg, fun n t ⟨fr, h1, h2⟩ => hs'.bound n t ⟨fr, h1, h2⟩, hs'.off⟩, RewGrows.refl s', s.tdRew, ts, .refl _, rfl⟩

theorem TSat.unionOrder (v : Val) (ts : List Ty) : TSat W C F N (T.unionOrder W C v ts) (fun o => match o with
    | .ok order => TryOrder W C v ts order
    | .error e => e = Exc.plain .type ∧ UnhashableTag W v ts) := by
  unfold T.unionOrder
  split
  · rename_i kvs
    refine TSat.bind (TSat.discCached ts) ?_ (fun e he => by obtain ⟨_, _, _, h⟩ := he; cases h)
    rintro d ⟨rew, us, hperm, hd⟩
    injection hd with hd
    unfold T.orderBy
    split
    · exact TSat.pure (Or.inl rfl)
    · rename_i key table
      obtain ⟨hk, htab⟩ := mkDisc_key hd.symm
      have hk : ∀ u ∈ ts, HasLiteralField W u key := fun u hu => hk u (hperm.mem_iff.2 hu)
      split
      · exact TSat.pure (Or.inl rfl)
      split
      · split
        · rename_i p hp
          obtain ⟨l', hmem, heq⟩ := dget_mem hp
          rw [htab] at hmem
          obtain ⟨hpt, l, hl, hll⟩ := literalTable_ok rew key us l' p hmem
          have hpt := hperm.mem_iff.1 hpt
          exact TSat.pure (Or.inr ⟨p, ⟨kvs, key, l, rfl, hpt, hk, hl, l', heq, hll⟩, rfl⟩)
        · exact TSat.pure (Or.inl rfl)
      · rename_i hh
        refine TSat.raise ⟨rfl, kvs, key, ?_⟩
        cases hx : dget kvs (.str key) with
        | none => rw [hx] at hh; exact absurd rfl hh
        | some x => exact ⟨x, rfl, hk, rfl, by rw [hx] at hh; simpa using hh⟩
  · exact TSat.pure (Or.inl rfl)

section steps
variable (hcl : Closed W C G F) {P : Handler → Val → Ty → Except Exc Val → Prop} {rec : T.Rec}
  (hrec : ∀ h x t, Installed C h → G t → TSat W C F N (rec h x t) (P h x t))
include hcl hrec

theorem TSat.loadWith (x : Val) {t : Ty} (hg : G t) (a : Option Annotation) :
    TSat W C F N (T.loadWith W C rec x t a) (LoadSem W C P x t a) := by
  unfold T.loadWith
  refine TSat.bind (TSat.loadResolve hcl x hg) ?_ ?_
  · intro h hh
    have hp : pick W C t = .ok h := by
      cases hp : pick W C t with
      | error c => rw [hp] at hh; cases hh
      | ok h2 => rw [hp] at hh; cases hh; rfl
    refine TSat.rescue (hrec h x t (pick_installed hp) hg) (fun r hr => .ok hp hr) (fun e he => ?_)
    have := LoadSem.err (ann := a) hp he
    unfold loadExc at this
    split
    · rename_i h; rw [if_pos h] at this; exact TSat.raise this
    · rename_i h; rw [if_neg h] at this; exact TSat.raise this
  · intro e he
    cases hp : pick W C t with
    | error c => rw [hp] at he; cases he; exact .noHandler hp
    | ok h2 => rw [hp] at he; cases he

theorem TSat.forwardrefload (v : Val) (t : Ty) : TSat W C F N (T.forwardrefload W C rec v t) (StepSem W C F P .forwardrefload v t) := by
  unfold T.forwardrefload
  split
  · rename_i n
    refine TSat.read (fun s hs => ?_)
    cases h0 : s.frefs with
    | none => exact TSat.raise (.frefDisabled (fun _ => id))
    | some fr0 =>
      refine TSat.read (fun s' hs' => ?_)
      cases h1 : s'.frefs with
      | none =>
        have := hs.off.2 (hs'.off.1 h1)
        rw [h0] at this; cases this
      | some fr =>
        dsimp only
        cases ha : aget fr n with
        | none => exact TSat.raise (.frefUnknown (fun _ => id))
        | some t' =>
          have hF := hs'.bound n t' ⟨fr, h1, ha⟩
          exact (TSat.loadWith hcl hrec v (hcl.bound n t' hF) _).mono (fun o ho => StepSem.fref hF (fun _ h => h.elim) ho)
  · rename_i hne
    refine TSat.raise (.mismatch rfl ?_)
    cases t <;> first | rfl | exact absurd rfl (hne _)

theorem TSat.newtypeload (v : Val) (t : Ty) (hg : G t) : TSat W C F N (T.newtypeload W C rec v t) (StepSem W C F P .newtypeload v t) := by
  unfold T.newtypeload
  split
  · rename_i n t'
    exact (TSat.loadWith hcl hrec v (hcl.newtype n t' hg) _).mono (fun o ho => StepSem.newtype ho)
  · rename_i hne
    refine TSat.raise (.mismatch rfl ?_)
    cases t <;> first | rfl | exact absurd rfl (hne _ _)

omit hcl in
theorem TSat.iterElem {h : Handler} (hin : Installed C h) {et : Ty} (hg : G et) (x : Val) : TSat W C F N (T.iterElem C rec h et x) (ElemSem C P h et x) := by
  by_cases hp : PassThrough C et x
  · rw [T.iterElem_pass _ _ hp]; exact TSat.pure (.pass hp)
  · rw [T.iterElem_call _ _ hp]; exact (hrec h x et hin hg).mono (fun o ho => .call hp ho)

omit hcl in
theorem TSat.iterElems {h : Handler} (hin : Installed C h) (k : SeqKind) {et : Ty} (hg : G et) (v : Val) (t : Ty) (xs : List Val) :
    ∀ i acc, TSat W C F N (T.iterElems W C rec h k et v t xs i acc) (IterSem W C P h k et v t xs i acc) := by
  induction xs with
  | nil => intro i acc; exact TSat.pure .nil
  | cons x xs ih =>
    intro i acc
    unfold T.iterElems
    refine TSat.handle (TSat.iterElem hrec hin hg x) ?_ ?_
    · intro y hy
      split
      · rename_i c hc; exact TSat.raise (.unhashable hy hc)
      · rename_i acc' hc; exact (ih (i + 1) acc').mono (fun o ho => .cons hy hc ho)
    · intro e he
      split
      · rename_i hst
        simp only [Bool.and_eq_true, beq_iff_eq] at hst
        exact TSat.pure (.stop he hst.1 hst.2)
      · rename_i hst
        refine TSat.raise (.elem he ?_)
        rintro ⟨h1, h2⟩
        exact hst (by simp [h1, h2])

theorem TSat.iterload {h : Handler} {k : SeqKind} (hk : iterKind h = some k) (hnt : ∀ k' et, suits W h (.coll k' et) = true ∨ True)
    (v : Val) (t : Ty) (hg : G t) (hsu : (∀ k' et, t ≠ .coll k' et) → suits W h t = false) :
    TSat W C F N (T.iterload W C rec k v t) (StepSem W C F P h v t) := by
  unfold T.iterload
  split
  · rename_i hv; exact TSat.raise (.iterDict hk hv)
  · rename_i hv
    have hv' : v.isDict = false := by simpa using hv
    split
    · rename_i k' et
      refine TSat.bind (TSat.resolve et _) ?_ ?_
      · intro h' hh'
        cases hp : pick W C et with
        | error c => rw [hp] at hh'; cases hh'
        | ok h2 =>
          rw [hp] at hh'; cases hh'
          split
          · rename_i hn; exact TSat.raise (.iterNot hk hn)
          · rename_i xs hx
            refine TSat.bind (TSat.iterElems hrec (pick_installed hp) k (hcl.coll k' et hg) v (.coll k' et) xs 0 []) ?_ ?_
            · intro ys hys; exact TSat.pure (.iter hk hv' hx hp hys)
            · intro e he; exact .iterErr hk hv' hx hp he
      · intro e he
        cases hp : pick W C et with
        | error c => rw [hp] at he; cases he; exact .iterLookup hk hp
        | ok h2 => rw [hp] at he; cases he
    · rename_i hne
      refine TSat.raise (.mismatch ?_ (hsu hne))
      cases h <;> first | rfl | cases hk

theorem TSat.tupElems (v : Val) (t : Ty) (xs : List Val) : ∀ (us : List Ty) (i : Nat), (∀ u ∈ us, G u) →
    TSat W C F N (T.tupElems W C rec v t xs us i) (TupSem W C P v t xs us i) := by
  induction xs with
  | nil => intro us i _; unfold T.tupElems; exact TSat.pure .nil_left
  | cons x xs ih =>
    intro us i hg
    cases us with
    | nil => unfold T.tupElems; exact TSat.pure .nil_right
    | cons u us =>
      unfold T.tupElems
      have helem : TSat W C F N (do let h ← T.tupHandler W C u; if C.isBasic u && typeOf x == u then (Pure.pure x : Prog Val) else rec h x u : Prog Val)
          (TupElemSem W C P x u) := by
        refine TSat.bind (TSat.tupHandler u) ?_ ?_
        · intro h hh
          cases hp : pick W C u with
          | error c => rw [hp] at hh; cases hh
          | ok h2 =>
            rw [hp] at hh; cases hh
            by_cases hb : (C.isBasic u && typeOf x == u) = true
            · rw [if_pos hb]
              have hb' : C.isBasic u = true ∧ typeOf x = u := by simpa [ty_beq] using hb
              exact TSat.pure (.pass hp hb'.1 hb'.2)
            · rw [if_neg hb]
              have hb' : ¬ (C.isBasic u = true ∧ typeOf x = u) := by simpa [ty_beq] using hb
              exact (hrec h x u (pick_installed hp) (hg u (by simp))).mono (fun o ho => .call hp hb' ho)
        · intro e he
          cases hp : pick W C u with
          | error c => rw [hp] at he; cases he; exact .noHandler hp
          | ok h2 => rw [hp] at he; cases he
      refine TSat.bind (Q := fun o => (∃ y, o = .ok y ∧ TupElemSem W C P x u (.ok y)) ∨
        ∃ e, o = .error (elemError v t i e) ∧ TupElemSem W C P x u (.error e)) ?_ ?_ ?_
      · refine TSat.rescue helem (fun y hy => Or.inl ⟨y, rfl, hy⟩) (fun e he => TSat.raise (Or.inr ⟨e, rfl, he⟩))
      · rintro y (⟨y', h1, hy⟩ | ⟨_, h1, _⟩)
        · cases h1
          refine TSat.bind (ih us (i + 1) (fun u' hu' => hg u' (by simp [hu']))) ?_ ?_
          · intro ys hys; exact TSat.pure (.ok hy hys)
          · intro e he; exact .later hy he
        · cases h1
      · rintro e (⟨y', h1, hy⟩ | ⟨e', h1, he⟩)
        · cases h1
        · cases h1; exact .elem he

theorem TSat.tupleload (v : Val) (t : Ty) (hg : G t) : TSat W C F N (T.tupleload W C rec v t) (StepSem W C F P .tupleload v t) := by
  unfold T.tupleload
  split
  · exact TSat.iterload hcl hrec rfl (fun _ _ => Or.inr trivial) v _ hg (fun h => absurd rfl (h _ _))
  · rename_i ts
    split
    · rename_i hv; exact TSat.raise (.tupDict hv)
    · rename_i hv
      have hv' : v.isDict = false := by simpa using hv
      split
      · rename_i hn; exact TSat.raise (.tupLen hn)
      · rename_i xs hx
        by_cases h1 : (C.failonextra && decide (xs.length > ts.length)) = true
        · rw [if_pos h1]
          simp only [Bool.and_eq_true, decide_eq_true_eq] at h1
          exact TSat.raise (.tupSize hx (Or.inr h1))
        · rw [if_neg h1]
          by_cases h2 : xs.length < ts.length
          · rw [if_pos h2]; exact TSat.raise (.tupSize hx (Or.inl h2))
          · rw [if_neg h2]
            refine TSat.bind (TSat.tupElems hcl hrec v (.tuple ts) xs ts 0 (hcl.tuple ts hg)) ?_ ?_
            · intro ys hys
              refine TSat.pure (.tup hv' hx (by omega) ?_ hys)
              intro hf; simp [hf] at h1; omega
            · intro e he; exact .tupErr hv' hx (by omega) he
  · rename_i h1 h2
    refine TSat.raise (.mismatch rfl ?_)
    cases t with
    | coll k et => cases k <;> first | rfl | exact absurd rfl (h1 _)
    | tuple ts => exact absurd rfl (h2 _)
    | _ => rfl

theorem TSat.dictFast {kt vt : Ty} (hk : G kt) (hv : G vt) {keyF : Handler} {valF : Option Handler} (hki : Installed C keyF) (hvi : ∀ h, valF = some h → Installed C h) (kvs : List (Val × Val)) :
    ∀ acc, TSat W C F N (T.dictFast W C rec kt vt keyF valF kvs acc) (fun o => ∀ res, o = .ok res → FastSem W C P kt vt keyF valF kvs acc res) := by
  induction kvs with
  | nil => intro acc; exact TSat.pure (fun res h => by cases h; exact .nil)
  | cons p kvs ih =>
    obtain ⟨k, x⟩ := p
    intro acc
    rw [Keeps.dictFast_cons]
    have part : ∀ (hh : Handler) (t : Ty) (x : Val), Installed C hh → G t →
        TSat W C F N (if (C.isBasic t && isInstTy t x) = true then (Pure.pure x : Prog Val) else rec hh x t : Prog Val)
          (fun o => ∀ y, o = .ok y → FastPart C P (some hh) t x y) := by
      intro hh t x hin hg
      by_cases hb : (C.isBasic t && isInstTy t x) = true
      · rw [if_pos hb]; exact TSat.pure (fun y hy => by cases hy; exact .pass (isInstTy_iff.1 hb))
      · rw [if_neg hb]
        exact (hrec hh x t hin hg).mono (fun o ho y hy => by
          subst hy; exact .call (fun h => hb (isInstTy_iff.2 h)) rfl ho)
    refine TSat.bind (part keyF kt k hki hk) ?_ (fun _ _ _ h => by cases h)
    intro k' hk'
    refine TSat.bind (Q := fun o => ∀ y, o = .ok y → FastPart C P valF vt x y) ?_ ?_ (fun _ _ _ h => by cases h)
    · cases valF with
      | some hh => exact part hh vt x (hvi hh rfl) hv
      | none =>
        by_cases hb : (C.isBasic vt && isInstTy vt x) = true
        · rw [if_pos hb]; exact TSat.pure (fun y hy => by cases hy; exact .pass (isInstTy_iff.1 hb))
        · rw [if_neg hb]; exact TSat.raise (fun y hy => by cases hy)
    · intro x' hx'
      split
      · rename_i hh
        exact (ih (dset acc k' x')).mono (fun o ho res hr => .cons (hk' k' rfl) (hx' x' rfl) hh (ho res hr))
      · exact TSat.raise (fun _ h => by cases h)

theorem TSat.dictSlow {kt vt : Ty} (hk : G kt) (hv : G vt) (kvs : List (Val × Val)) :
    ∀ acc, TSat W C F N (T.dictSlow W C rec kt vt kvs acc) (SlowSem W C P kt vt kvs acc) := by
  induction kvs with
  | nil => intro acc; exact TSat.pure .nil
  | cons p kvs ih =>
    obtain ⟨k, x⟩ := p
    intro acc
    unfold T.dictSlow
    refine TSat.bind (TSat.loadWith hcl hrec k hk _) ?_ (fun e he => .key he)
    intro k' hk'
    refine TSat.bind (TSat.loadWith hcl hrec x hv _) ?_ (fun e he => .value hk' he)
    intro x' hx'
    split
    · rename_i hh; exact (ih _).mono (fun o ho => .cons hk' hx' hh ho)
    · rename_i hh; exact TSat.raise (.unhashable hk' hx' (by simpa using hh))

theorem TSat.dictload (v : Val) (t : Ty) (hg : G t) : TSat W C F N (T.dictload W C rec v t) (StepSem W C F P .dictload v t) := by
  unfold T.dictload
  split
  · rename_i kt vt
    have hgk := hcl.dictKey _ _ hg
    have hgv := hcl.dictVal _ _ hg
    refine TSat.bind (TSat.resolve kt _) ?_ ?_
    · intro keyF0 hk0
      have hpk : pick W C kt = .ok keyF0 := by
        cases hp : pick W C kt with
        | error c => rw [hp] at hk0; cases hk0
        | ok h2 => rw [hp] at hk0; cases hk0; rfl
      refine TSat.bind (TSat.dictValueHandler v _ vt keyF0) ?_ ?_
      · rintro ⟨keyF, valF⟩ ⟨hv, hpv, hcase⟩
        have hcase' : keyF = keyF0 ∧ valF = some hv ∨ keyF = hv ∧ valF = none := by
          rcases hcase with h | h <;> cases h
          · exact Or.inl ⟨rfl, rfl⟩
          · exact Or.inr ⟨rfl, rfl⟩
        have hki : Installed C keyF := by
          rcases hcase' with ⟨h, _⟩ | ⟨h, _⟩ <;> rw [h]
          · exact pick_installed hpk
          · exact pick_installed hpv
        have hvi : ∀ h, valF = some h → Installed C h := by
          intro h he
          rcases hcase' with ⟨_, h2⟩ | ⟨_, h2⟩ <;> rw [h2] at he <;> cases he
          exact pick_installed hpv
        unfold T.dictPasses
        cases hit : items (dictequivalence C v) with
        | none =>
          have hnd : ∀ kvs, ¬ DictData C v kvs := by
            intro kvs h
            rw [← items_dictequivalence (C := C)] at h; rw [h] at hit; cases hit
          have hvv : dictequivalence C v = v := by
            cases v with
            | ns fs =>
              cases hq : C.dictequivalence with
              | true => exact absurd (Or.inr ⟨fs, rfl, hq, rfl⟩) (hnd _)
              | false => simp [dictequivalence, hq]
            | _ => rfl
          dsimp only
          refine TSat.rescue (Q := fun o => ∃ e, o = .error e) (TSat.raise ⟨_, rfl⟩) (fun a h => by obtain ⟨_, h⟩ := h; cases h) ?_
          intro e _
          refine TSat.rescue (Q := fun o => o = .error (.plain .attr)) (TSat.raise rfl) (fun a h => by cases h) ?_
          intro e he; cases he
          refine TSat.raise ?_
          rw [hvv]
          exact .dictNot hnd
        | some kvs =>
          have hdata := (items_dictequivalence (C := C) v kvs).1 hit
          dsimp only
          refine TSat.rescue (Q := fun o => ∀ r, o = .ok r → ∃ res, r = .dict res ∧ FastSem W C P kt vt keyF valF kvs [] res) ?_ ?_ ?_
          · refine TSat.bind (TSat.dictFast hcl hrec hgk hgv hki hvi kvs []) ?_ (fun _ _ _ h => by cases h)
            intro res hres
            exact TSat.pure (fun r hr => by cases hr; exact ⟨res, rfl, hres res rfl⟩)
          · intro r hr
            obtain ⟨res, rfl, hres⟩ := hr r rfl
            exact .dictFast hdata hpk hpv hcase' hres
          · intro _ _
            refine TSat.rescue (Q := fun o => match o with
              | .ok r => ∃ res, r = .dict res ∧ SlowSem W C P kt vt kvs [] (.ok res)
              | .error e => SlowSem W C P kt vt kvs [] (.error e)) ?_ ?_ ?_
            · refine TSat.bind (TSat.dictSlow hcl hrec hgk hgv kvs []) ?_ (fun e he => he)
              intro res hres
              exact TSat.pure ⟨res, rfl, hres⟩
            · rintro r ⟨res, rfl, hres⟩
              exact .dictSlow hdata hpk hpv hres
            · intro e he
              have := StepSem.dictErr (F := F) hdata hpk hpv he
              split
              · rename_i ha; rw [if_pos ha] at this; exact TSat.raise this
              · rename_i ha; rw [if_neg ha] at this; exact TSat.raise this
      · rintro e ⟨c, hp, rfl⟩; exact .dictLookup (Or.inr rfl) hp
    · intro e he
      cases hp : pick W C kt with
      | error c => rw [hp] at he; cases he; exact .dictLookup (Or.inl rfl) hp
      | ok h2 => rw [hp] at he; cases he
  · rename_i hne
    refine TSat.raise (.mismatch rfl ?_)
    cases t <;> first | rfl | exact absurd rfl (hne _ _)

omit hcl in
theorem TSat.objFields {c : Nat} {info : ObjInfo} (hi : InfoFor W C c info) (hg : ∀ f ∈ (W.cls c).fields, ∀ t, FieldTy (W.cls c).kind f t → G t)
    (v : Val) (t : Ty) (kvs : List (Val × Val)) :
    ∀ acc, TSat W C F N (T.objFields W C rec info v t kvs acc) (FieldsSem W C P info v t kvs acc) := by
  induction kvs with
  | nil => intro acc; exact TSat.pure .nil
  | cons p kvs ih =>
    obtain ⟨k, x⟩ := p
    intro acc
    by_cases hk : isFieldKey info.fields k = true
    · have : ∃ m, k = .str m ∧ m ∈ info.fields := by
        cases k <;> simp [isFieldKey] at hk
        exact ⟨_, rfl, hk⟩
      obtain ⟨m, rfl, hm⟩ := this
      rw [T.objFields_field _ _ _ _ hm]
      cases hh : aget info.hints m with
      | none =>
        rw [hi.fields] at hm
        obtain ⟨f, hf, rfl⟩ := List.mem_map.1 hm
        have := hi.hints_some f hf
        rw [hh] at this; cases this
      | some ft =>
        dsimp only
        obtain ⟨f, hf, _, hty⟩ := hi.hints m ft hh
        refine TSat.bind (TSat.resolve ft _) ?_ ?_
        · intro h hp
          have hp : pick W C ft = .ok h := by
            cases hp2 : pick W C ft with
            | error c => rw [hp2] at hp; cases hp
            | ok h2 => rw [hp2] at hp; cases hp; rfl
          refine TSat.bind (Q := fun o => match o with
            | .ok y => P h x ft (.ok y)
            | .error e => ∃ e', P h x ft (.error e') ∧ e = if e'.isTL then e'.push ⟨v, t, some (.field m)⟩ else e') ?_ ?_ ?_
          · refine TSat.rescue (hrec h x ft (pick_installed hp) (hg f hf ft hty)) (fun _ h => h) ?_
            intro e he
            split
            · rename_i htl; exact TSat.raise ⟨e, he, by rw [if_pos htl]⟩
            · rename_i htl; exact TSat.raise ⟨e, he, by rw [if_neg htl]⟩
          · intro y hy
            exact (ih (aset acc m y)).mono (fun o ho => .field hm hh hp hy ho)
          · rintro e ⟨e', he, rfl⟩
            exact .fieldErr hm hh hp he
        · intro e he
          cases hp : pick W C ft with
          | error c => rw [hp] at he; cases he; exact .noHandler hm hh hp
          | ok h2 => rw [hp] at he; cases he
    · have hk' : isFieldKey info.fields k = false := by simpa using hk
      rw [T.objFields_other _ _ _ _ hk']
      exact (ih acc).mono (fun o ho => .other hk' ho)

omit hcl in
theorem TSat.objloader {c : Nat} {info : ObjInfo} (hi : InfoFor W C c info) (hg : ∀ f ∈ (W.cls c).fields, ∀ t, FieldTy (W.cls c).kind f t → G t)
    {v v' : Val} (hm : (info.transforms = [] ∧ v' = v) ∨
      ∃ kvs kvs', v = .dict kvs ∧ v' = .dict kvs' ∧ info.transforms ≠ [] ∧ mangleLoop info.transforms C.failonextra kvs [] = .ok kvs') :
    TSat W C F N (T.objloader W C rec info v' c) (ObjSem W C P v c) := by
  have key : ∀ kvs', DictData C v' kvs' → ∃ kvs, Mangled C info.transforms v kvs kvs' := by
    intro kvs' hd
    rcases hm with ⟨h1, rfl⟩ | ⟨kvs, kvs2, rfl, rfl, h3⟩
    · exact ⟨kvs', hd, Or.inl ⟨h1, rfl⟩⟩
    · rcases hd with hd | ⟨_, hd, _⟩
      · cases hd; exact ⟨kvs, Or.inl rfl, Or.inr ⟨rfl, h3⟩⟩
      · cases hd
  unfold T.objloader
  cases hv : objItems C v' with
  | none =>
    have hnd := (objItems_none v').1 hv
    rcases hm with ⟨h4, rfl⟩ | ⟨kvs, kvs2, rfl, rfl, _⟩
    · exact TSat.raise (.noDict hi hnd h4)
    · exact absurd (Or.inl rfl) (hnd kvs2)
  | some p =>
    obtain ⟨w, kvs'⟩ := p
    have hdata := (objItems_iff v' kvs').1 ⟨w, hv⟩
    have hw : w = .dict kvs' := by
      unfold objItems at hv
      split at hv
      · cases hv; rfl
      · split at hv
        · cases hv; rfl
        · cases hv
      · cases hv
    subst hw
    obtain ⟨kvs, hmg⟩ := key kvs' hdata
    dsimp only
    by_cases hnec : info.necessary.all (fun n => dhas kvs' (.str n)) = true
    · have hnec' : ∀ f ∈ info.necessary, f ∈ strKeys kvs' := by
        intro f hf; rw [List.all_eq_true] at hnec; exact (dhas_str kvs' f).1 (hnec f hf)
      simp only [hnec, Bool.not_true, Bool.false_eq_true, if_false]
      by_cases hex : (C.failonextra && !(extraKeys info kvs').isEmpty) = true
      · rw [if_pos hex]
        simp only [Bool.and_eq_true, Bool.not_eq_true'] at hex
        have hne : ∃ p ∈ kvs', isFieldKey info.fields p.1 = false := by
          cases hx : extraKeys info kvs' with
          | nil => rw [hx] at hex; simp at hex
          | cons a l =>
            have : a ∈ extraKeys info kvs' := by rw [hx]; simp
            unfold extraKeys at this
            simp only [List.mem_filter, List.mem_map, Bool.not_eq_true'] at this
            obtain ⟨⟨p, hp, rfl⟩, h2⟩ := this
            exact ⟨p, hp, h2⟩
        split
        · exact TSat.raise (.extra hi hmg hex.1 hne)
        · rename_i hall
          refine TSat.raise (.extraKey hi hmg hex.1 ?_)
          simp only [List.all_eq_true, Classical.not_forall] at hall
          obtain ⟨k, hk, hk'⟩ := hall
          unfold extraKeys at hk
          simp only [List.mem_filter, List.mem_map] at hk
          obtain ⟨⟨q, hq, rfl⟩, _⟩ := hk
          refine ⟨q, hq, ?_⟩
          cases hs : strKey q.1 with
          | none => rfl
          | some m => rw [strKey_eq] at hs; rw [hs] at hk'; simp [typeOf] at hk'
      · rw [if_neg hex]
        have hextra : C.failonextra = true → ∀ p ∈ kvs', isFieldKey info.fields p.1 = true := by
          intro hf p hp
          simp only [hf, Bool.true_and, Bool.not_eq_true', Bool.not_eq_false, List.isEmpty_iff] at hex
          cases hq : isFieldKey info.fields p.1 with
          | true => rfl
          | false =>
            have : p.1 ∈ extraKeys info kvs' := by
              unfold extraKeys
              simp only [List.mem_filter, List.mem_map, Bool.not_eq_true']
              exact ⟨⟨p, hp, rfl⟩, hq⟩
            rw [hex] at this; cases this
        refine TSat.bind (TSat.objFields hrec hi hg _ _ kvs' []) ?_ (fun e he => .field hi hmg hnec' he)
        intro params hpar
        cases hcon : construct W c params with
        | ok r => exact TSat.pure (.ok hi hmg hnec' hextra hpar hcon)
        | error x =>
          have := ObjSem.construct hi hmg hnec' hpar hcon
          dsimp only
          split
          · rename_i h1; exact TSat.raise (by simpa [constructExc, h1] using this)
          · split
            · rename_i h1 h2; exact TSat.raise (by simpa [constructExc, h1, h2] using this)
            · rename_i h1 h2; exact TSat.raise (by simpa [constructExc, h1, h2] using this)
    · have hnec' : info.necessary.all (fun n => dhas kvs' (.str n)) = false := by simpa using hnec
      rw [if_pos (by rw [hnec']; rfl)]
      refine TSat.raise (.missing hi hmg ?_)
      simp only [List.all_eq_true, Classical.not_forall] at hnec
      obtain ⟨f, hf, hf'⟩ := hnec
      exact ⟨f, hf, fun h => hf' ((dhas_str kvs' f).2 h)⟩

omit hcl in
theorem TSat.mangled {c : Nat} {info : ObjInfo} (hi : InfoFor W C c info) (hg : ∀ f ∈ (W.cls c).fields, ∀ t, FieldTy (W.cls c).kind f t → G t)
    (v : Val) : TSat W C F N (T.objMangled W C rec info v c) (ObjSem W C P v c) := by
  unfold T.objMangled mangleOrRaise
  cases hm : mangle_names info.transforms v C.failonextra with
  | ok v' =>
    show TSat W C F N (T.objloader W C rec info v' c) _
    exact TSat.objloader hrec hi hg (mangle_names_ok hm)
  | error x =>
    obtain ⟨h1, h2⟩ := mangle_names_error hm
    refine TSat.bind (Q := fun o => ∃ e, o = .error e ∧ MangleErr C info.transforms v e ∧ ∃ cl m, cl.isTL = true ∧ e = mkExc cl m v (.obj c)) ?_ ?_ ?_
    · rcases h2 with ⟨h2, rfl⟩ | ⟨h2, rfl, h3⟩
      · exact TSat.raise ⟨_, rfl, ⟨h1, Or.inl ⟨h2, rfl⟩⟩, _, _, rfl, rfl⟩
      · exact TSat.raise ⟨_, rfl, ⟨h1, Or.inr ⟨h2, rfl, h3⟩⟩, _, _, rfl, rfl⟩
    · rintro a ⟨e, h, _⟩; cases h
    · rintro e ⟨e', h, h3, h4⟩; cases h; exact .mangle hi h3 h4

theorem TSat.objhandler (c : Nat) (hg : G (.obj c)) (v : Val) :
    TSat W C F N (T.step W C rec (objHandler (W.cls c).kind) v (.obj c)) (ObjSem W C P v c) := by
  have hgf := hcl.field c hg
  cases hk : (W.cls c).kind with
  | namedtuple =>
    simp only [objHandler, T.step, T.namedtupleload, if_pos hk]
    exact TSat.objloader hrec (infoFor_namedtuple hk) hgf (Or.inl ⟨rfl, rfl⟩)
  | typeddict =>
    simp only [objHandler, T.step, T.typeddictload, if_pos hk]
    refine TSat.read (fun s hs => TSat.write (fun s hs => ⟨hs.coh.rewrite c, ?_, ?_⟩) (fun s => RewGrows.rewrite c s) ?_)
    · intro n t hb
      refine hs.bound n t ?_
      unfold rewriteAnnotations at hb
      split at hb <;> exact hb
    · rw [← hs.off]; unfold rewriteAnnotations; split <;> rfl
    · exact TSat.objloader hrec (infoFor_typeddict hk _) hgf (Or.inl ⟨rfl, rfl⟩)
  | dataclass =>
    simp only [objHandler, T.step, T.dataclassload, if_pos hk]
    refine TSat.bind (Q := fun o => o = .ok (dataclassInfo C (W.cls c))) ?_ ?_ (fun _ h => by cases h)
    · unfold T.dataclassCached
      refine TSat.read (fun s hs => ?_)
      cases ho : aget s.objc c with
      | some i => exact TSat.pure (by rw [hs.coh.objc c i ho])
      | none =>
        exact TSat.write (fun s hs => ⟨hs.coh.setObjc c, fun n t ⟨fr, h1, h2⟩ => hs.bound n t ⟨fr, h1, h2⟩, hs.off⟩) (fun _ => RewGrows.refl _) (TSat.pure rfl)
    · intro i h; cases h
      exact TSat.mangled hrec (infoFor_dataclass hk) hgf v
  | attrs =>
    simp only [objHandler, T.step, T.attrload, if_pos hk]
    cases hh : attrHints (W.cls c).fields with
    | error x =>
      have := attrHints_error _ _ hh
      subst this
      exact TSat.raise (.stop hk hh)
    | ok hints => exact TSat.mangled hrec (infoFor_attrs hk hh) hgf v

theorem TSat.unionTry (v : Val) (t : Ty) (us : List Ty) : ∀ (c : Nat) (r : Val) (es : List Exc), (∀ u ∈ us, G u) →
    TSat W C F N (T.unionTry W C rec v t us c r es) (TrySem W C P v t us c r es) := by
  induction us with
  | nil => intro c r es _; exact TSat.pure .nil
  | cons u us ih =>
    intro c r es hg
    unfold T.unionTry
    have hcall : TSat W C F N (do let h ← T.resolve W C u (mkExc .tlValue (.noHandlerIn u t) v u); rec h v u : Prog Val)
        (CallSem W C P (mkExc .tlValue (.noHandlerIn u t) v u) v u) := by
      refine TSat.bind (TSat.resolve u _) ?_ ?_
      · intro h hp
        have hp : pick W C u = .ok h := by
          cases hp2 : pick W C u with
          | error c => rw [hp2] at hp; cases hp
          | ok h2 => rw [hp2] at hp; cases hp; rfl
        exact (hrec h v u (pick_installed hp) (hg u (by simp))).mono (fun o ho => .call hp ho)
      · intro e he
        cases hp : pick W C u with
        | error c => rw [hp] at he; cases he; exact .noHandler hp
        | ok h2 => rw [hp] at he; cases he
    have hg' : ∀ u' ∈ us, G u' := fun u' hu' => hg u' (by simp [hu'])
    refine TSat.handle hcall ?_ ?_
    · intro x hx
      split
      · rename_i hdbg; exact (ih (c + 1) x es hg').mono (fun o ho => .count hx hdbg ho)
      · rename_i hdbg; exact TSat.pure (.win hx (by simpa using hdbg))
    · intro e he
      split
      · rename_i htl; exact (ih c r _ hg').mono (fun o ho => .refuse he htl ho)
      · rename_i htl; exact TSat.raise (.crash he (by simpa using htl))

theorem TSat.unionload (v : Val) (t : Ty) (hg : G t) : TSat W C F N (T.unionload W C rec v t) (StepSem W C F P .unionload v t) := by
  unfold T.unionload
  split
  · rename_i ts
    by_cases hb : (C.isBasic (typeOf v) && ts.contains (typeOf v)) = true
    · rw [if_pos hb]
      simp only [Bool.and_eq_true, List.contains_iff_mem] at hb
      exact TSat.pure (.unionBasic hb)
    · rw [if_neg hb]
      have hne : ¬ ExactBasic C v ts := by
        intro h; apply hb; simp only [Bool.and_eq_true, List.contains_iff_mem]; exact h
      refine TSat.bind (TSat.unionOrder v ts) ?_ ?_
      · intro order hord
        have hgo : ∀ u ∈ order, G u := fun u hu => hcl.union ts hg u (hord.perm.mem_iff.1 hu)
        refine TSat.bind (TSat.unionTry hcl hrec v (.union ts) order 0 .none [] hgo) ?_ (fun e he => .unionCrash hne hord he)
        rintro ⟨c, r, es⟩ hres
        dsimp only
        match c, hres with
        | 0, hres => exact TSat.raise (.unionNone hne hord hres)
        | 1, hres => exact TSat.pure (.unionOne hne hord hres)
        | n + 2, hres =>
          rw [if_neg (by omega), if_neg (by omega)]
          exact TSat.raise (.unionMany hne hord hres)
      · rintro e ⟨rfl, htag⟩; exact .unionTag htag
  · rename_i hne
    refine TSat.raise (.mismatch rfl ?_)
    cases t <;> first | rfl | exact absurd rfl (hne _)

theorem TSat.enumHints (v : Val) (e : Nat) (us : List Ty) : ∀ (es : List Exc), (∀ u ∈ us, G u) →
    TSat W C F N (T.enumHints W C rec v e us es) (HintsSem W C P v e us es) := by
  induction us with
  | nil => intro es _; exact TSat.raise .nil
  | cons u us ih =>
    intro es hg
    unfold T.enumHints
    refine TSat.rescue (Q := fun o => match o with
      | .ok m => ∃ x, LoadSem W C P v u (some (.union u)) (.ok x) ∧ enumCall W e x = some m
      | .error ex => LoadSem W C P v u (some (.union u)) (.error ex) ∨
          ∃ x, LoadSem W C P v u (some (.union u)) (.ok x) ∧ enumCall W e x = none ∧ ex = .plain .value) ?_ ?_ ?_
    · refine TSat.bind (TSat.loadWith hcl hrec v (hg u (by simp)) _) ?_ (fun ex he => Or.inl he)
      intro x hx
      split
      · rename_i m hm; exact TSat.pure ⟨x, hx, hm⟩
      · rename_i hm; exact TSat.raise (Or.inr ⟨x, hx, hm, rfl⟩)
    · rintro m ⟨x, hx, hm⟩; exact .ok hx hm
    · intro ex hex
      refine (ih (es ++ [ex]) (fun u' hu' => hg u' (by simp [hu']))).mono ?_
      intro o ho
      rcases hex with he | ⟨x, hx, hm, rfl⟩
      · exact .err he ho
      · exact .noMember hx hm ho

theorem TSat.enumload (v : Val) (t : Ty) (hg : G t) : TSat W C F N (T.enumload W C rec v t) (StepSem W C F P .enumload v t) := by
  unfold T.enumload
  split
  · rename_i e
    split
    · rename_i m hm; exact TSat.pure (.enumMember hm)
    · rename_i hm
      exact (TSat.enumHints hcl hrec v e _ [] (hcl.enum e hg)).mono (fun o ho => .enumHints hm ho)
  · rename_i hne
    refine TSat.raise (.mismatch rfl ?_)
    cases t <;> first | rfl | exact absurd rfl (hne _)

theorem TSat.script (p : Script) (hp : ∀ x u, p.Asks x u → G u) : TSat W C F N (T.script (T.loadWith W C rec) p) (ScriptSem W C P p) := by
  induction p with
  | ret v => exact TSat.pure .ret
  | raise e => exact TSat.raise .raise
  | call v t a next ih =>
    refine TSat.handle (TSat.loadWith hcl hrec v (hp v t .here) a) (fun r hr => ?_) (fun e he => ?_)
    · exact (ih (.ok r) (fun x u h => hp x u (.later h))).mono (fun o ho => .call hr ho)
    · exact (ih (.error e) (fun x u h => hp x u (.later h))).mono (fun o ho => .call he ho)

/-- Every outcome of a handler call is described by `StepSem`. -/
theorem TSat.step (h : Handler) (v : Val) (t : Ty) (hin : Installed C h) (hg : G t) : TSat W C F N (T.step W C rec h v t) (StepSem W C F P h v t) := by
  have leaf : h.isLeaf = true → TSat W C F N (T.step W C rec h v t) (StepSem W C F P h v t) := by
    intro hl
    obtain ⟨o, ho⟩ := leaf_lift (W := W) (C := C) hl v t
    have : T.step W C rec h v t = Prog.local' (TL.step W C (fun _ _ _ _ => .div) h v t) := by
      cases h <;> first | rfl | cases hl
    rw [this]
    exact TSat.local' (ho _) (.leaf hl ho)
  have objc : ∀ k : ObjKind, h = objHandler k → (∀ c, t = .obj c → (W.cls c).kind = k → TSat W C F N (T.step W C rec h v t) (StepSem W C F P h v t)) := by
    intro k hh c hc hk
    subst hh hc hk
    exact (TSat.objhandler hcl hrec c hg v).mono (fun o ho => .obj ho)
  cases h with
  | unionload => exact TSat.unionload hcl hrec v t hg
  | enumload => exact TSat.enumload hcl hrec v t hg
  | tupleload => exact TSat.tupleload hcl hrec v t hg
  | listload =>
    refine TSat.iterload hcl hrec rfl (fun _ _ => Or.inr trivial) v t hg ?_
    intro hne; cases t <;> first | rfl | exact absurd rfl (hne _ _)
  | setload =>
    refine TSat.iterload hcl hrec rfl (fun _ _ => Or.inr trivial) v t hg ?_
    intro hne; cases t <;> first | rfl | exact absurd rfl (hne _ _)
  | frozensetload =>
    refine TSat.iterload hcl hrec rfl (fun _ _ => Or.inr trivial) v t hg ?_
    intro hne; cases t <;> first | rfl | exact absurd rfl (hne _ _)
  | dictload => exact TSat.dictload hcl hrec v t hg
  | forwardrefload => exact TSat.forwardrefload hcl hrec v t
  | newtypeload => exact TSat.newtypeload hcl hrec v t hg
  | namedtupleload =>
    cases t with
    | obj c =>
      by_cases hk : (W.cls c).kind = .namedtuple
      · exact objc _ rfl c rfl hk
      · simp only [T.step, T.namedtupleload, if_neg hk]
        exact TSat.raise (.mismatch rfl (by simp [suits, hk]))
    | _ => exact TSat.raise (.mismatch rfl rfl)
  | dataclassload =>
    cases t with
    | obj c =>
      by_cases hk : (W.cls c).kind = .dataclass
      · exact objc _ rfl c rfl hk
      · simp only [T.step, T.dataclassload, if_neg hk]
        exact TSat.raise (.mismatch rfl (by simp [suits, hk]))
    | _ => exact TSat.raise (.mismatch rfl rfl)
  | attrload =>
    cases t with
    | obj c =>
      by_cases hk : (W.cls c).kind = .attrs
      · exact objc _ rfl c rfl hk
      · simp only [T.step, T.attrload, if_neg hk]
        exact TSat.raise (.mismatch rfl (by simp [suits, hk]))
    | _ => exact TSat.raise (.mismatch rfl rfl)
  | typeddictload =>
    cases t with
    | obj c =>
      by_cases hk : (W.cls c).kind = .typeddict
      · exact objc _ rfl c rfl hk
      · simp only [T.step, T.typeddictload, if_neg hk]
        exact TSat.raise (.mismatch rfl (by simp [suits, hk]))
    | _ => exact TSat.raise (.mismatch rfl rfl)
  | custom i => exact (TSat.script hcl hrec _ (hcl.custom i hin v t hg)).mono (fun o ho => .custom hin ho)
  | _ => exact leaf rfl
end steps

/-- **Induction over handler calls**: a property of outcomes that each step passes on holds of all outcomes. -/
theorem TSat.run (hcl : Closed W C G F) {P : Handler → Val → Ty → Except Exc Val → Prop}
    (hstep : ∀ h v t o, G t → StepSem W C F P h v t o → P h v t o) (n : Nat) :
    ∀ h v t, Installed C h → G t → TSat W C F N (T.run W C n h v t) (P h v t) := by
  induction n with
  | zero => intro h v t _ _ s; trivial
  | succ n ih => exact fun h v t hin hg => (TSat.step hcl ih h v t hin hg).mono (hstep h v t · hg)


/-! ## The calls of several threads -/

/-- The types that one of the calls can meet. -/
def MeetsAny (W : World) (C : Config) (s : LState) (jobs : List Job) (u : Ty) : Prop := ∃ j ∈ jobs, Meets W C s j.type u

theorem MeetsAny.closed (s : LState) (jobs : List Job) :
    Closed W C (MeetsAny W C s jobs) (fun n u => MeetsAny W C s jobs u ∧ Known W s n u) where
  coll _ _ := fun ⟨j, hj, h⟩ => ⟨j, hj, .coll h⟩
  tuple _ := fun ⟨j, hj, h⟩ _ hu => ⟨j, hj, .tuple h hu⟩
  dictKey _ _ := fun ⟨j, hj, h⟩ => ⟨j, hj, .dictKey h⟩
  dictVal _ _ := fun ⟨j, hj, h⟩ => ⟨j, hj, .dictVal h⟩
  union _ := fun ⟨j, hj, h⟩ _ hu => ⟨j, hj, .union h hu⟩
  newtype _ _ := fun ⟨j, hj, h⟩ => ⟨j, hj, .newtype h⟩
  enum _ := fun ⟨j, hj, h⟩ _ hu => ⟨j, hj, .enum h hu⟩
  field _ := fun ⟨j, hj, h⟩ _ hf _ ht => ⟨j, hj, .field h hf ht⟩
  custom _ hi _ _ := fun ⟨j, hj, h⟩ _ _ ha => ⟨j, hj, .custom hi h ha⟩
  names _ _ h hn := ⟨h, Or.inr hn⟩
  bound _ _ h := h.1

/-- **The outcomes of the calls of several threads**, however they are interleaved. -/
theorem Conf.Steps.sem {s : LState} (hs : Reachable W C s) {jobs : List Job} {P : Handler → Val → Ty → Except Exc Val → Prop}
    (hstep : ∀ h v t o, MeetsAny W C s jobs t → StepSem W C (fun n u => MeetsAny W C s jobs u ∧ Known W s n u) P h v t o → P h v t o)
    {c : Conf} (hc : (Conf.start W C s jobs).Steps c) {i : Nat} {j : Job} (hj : jobs[i]? = some j) :
    (∀ r, c.threads[i]? = some (.ret r) → ∃ hh, pick W C j.type = .ok hh ∧ P hh j.value j.type (.ok r)) ∧
    (∀ e, c.threads[i]? = some (.raise e) →
      (∃ hh e', pick W C j.type = .ok hh ∧ P hh j.value j.type (.error e') ∧ e = loadExc j.value j.type none e') ∨
      (∃ c, pick W C j.type = .error c ∧ e = lookupExc (mkExc .tlType (.noHandler j.type) j.value j.type) c)) := by
  cases jobs with
  | nil => cases hj
  | cons j0 js =>
  have hall : AllSafe (Fine W C (fun n u => MeetsAny W C s (j0 :: js) u ∧ Known W s n u) (s.frefs = none))
      (fun i => Except.ofRes (fun o => ∀ j, (j0 :: js)[i]? = some j → LoadSem W C P j.value j.type none o)) (Conf.start W C s (j0 :: js)) := by
    refine ⟨⟨hs.coh, fun n u h => ⟨⟨j0, by simp, .known h⟩, Or.inl h⟩, Iff.rfl⟩, fun i m hm => ⟨s, RewGrows.refl _, ?_⟩⟩
    simp only [Conf.start, List.getElem?_map, Option.map_eq_some_iff] at hm
    obtain ⟨j, hj, rfl⟩ := hm
    have hg : MeetsAny W C s (j0 :: js) j.type := ⟨j, List.mem_of_getElem? hj, .self⟩
    refine (TSat.mono (TSat.loadWith (MeetsAny.closed s (j0 :: js)) (TSat.run (MeetsAny.closed s (j0 :: js)) hstep j.fuel) j.value hg none) ?_) s
    intro o ho j' hj'
    rw [hj] at hj'; cases hj'
    exact ho
  have hend := hall.steps hc
  refine ⟨fun r hr => ?_, fun e he => ?_⟩
  · obtain ⟨_, _, h⟩ := hend.safe i _ hr
    cases (h : ∀ j : Job, _ → LoadSem W C P j.value j.type none (.ok r)) j hj with
    | ok hp hP => exact ⟨_, hp, hP⟩
  · obtain ⟨_, _, h⟩ := hend.safe i _ he
    have h := (h : ∀ j : Job, _ → LoadSem W C P j.value j.type none (.error e)) j hj
    generalize ho : (Except.error e : Except Exc Val) = o at h
    cases h with
    | ok => cases ho
    | err hp hP => cases ho; exact Or.inl ⟨_, _, hp, hP, rfl⟩
    | noHandler hp => cases ho; exact Or.inr ⟨_, hp, rfl⟩

end TL
