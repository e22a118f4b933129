import Verif.Props.Errors
/-!
# Traces of exceptions (C31)
-/

namespace TL

variable {W : World} {C : Config} {G : Ty → Prop} {F : String → Ty → Prop}

/-! ## Specification: following a trace -/

/-- A handler of the user calls `load(x, u, annotation=a)`, for some answers to its earlier calls. -/
inductive Script.Calls : Script → Val → Ty → Option Annotation → Prop
  | here {v t a next} : Calls (.call v t a next) v t a
  | later {v t a next o x u b} : Calls (next o) x u b → Calls (.call v t a next) x u b

/-- The TypedloadExceptions that a handler of the user, called with `v`, raises are those that its calls of the loader raised, unchanged, and
new ones, without trace and sub-exceptions, whose value is `v` or not given. -/
def Script.Forthright (v : Val) : Script → Prop
  | .ret _ => True
  | .raise e => e.isTL = true → e.trace = [] ∧ e.subs = [] ∧ (e.value = v ∨ e.value = .none)
  | .call _ _ _ next => (∀ r, (next (.ok r)).Forthright v) ∧ ∀ e, next (.error e) = .raise e ∨ (next (.error e)).Forthright v

/-- Handlers of the user have been added to the default ones: every type is served by one of them, by the handler of the default list, or not
at all; they raise TypedloadExceptions as `Forthright` says, and call the loader back with supported types. -/
structure Candid (W : World) (C : Config) : Prop where
  extended : ∀ t h, pick W C t = .ok h → pick W C.stock t = .ok h ∨ ∃ i, h = .custom i
  own : ∀ i v t, pick W C t = .ok (.custom i) → (W.customLoad i v t).Forthright v
  served : ∀ i v t x u a, pick W C t = .ok (.custom i) → (W.customLoad i v t).Calls x u a → ∃ h, pick W C u = .ok h

/-- From the value `v`, being loaded into `t`, the trace item `i` goes to the value `x`, being loaded into `u`.  The last case is for handlers of
the user that call the loader back; it does not apply to the default handler list. -/
inductive Goes (W : World) (C : Config) (F : String → Ty → Prop) : Val → Ty → TraceItem → Val → Ty → Prop
  | elem {v k u xs x} {i : Nat} : pyIter v = some xs → xs[i]? = some x → Goes W C F v (.coll k u) ⟨v, .coll k u, some (.index i)⟩ x u
  | pos {v ts u xs x} {i : Nat} : pyIter v = some xs → xs[i]? = some x → ts[i]? = some u →
      Goes W C F v (.tuple ts) ⟨v, .tuple ts, some (.index i)⟩ x u
  | field {v c kvs kvs' f u m x} : DictData C v kvs → (∀ p ∈ kvs', ∃ k, (k, p.2) ∈ kvs) → f ∈ (W.cls c).fields →
      FieldTy (W.cls c).kind f u → (.str m, x) ∈ kvs →
      (m = f.name ∨ ∃ g ∈ (W.cls c).fields, g.name = f.name ∧ renamed C (W.cls c).kind g = some m) →
      Goes W C F v (.obj c) ⟨.dict kvs', .obj c, some (.field f.name)⟩ x u
  | key {v kt vt kvs k x} : DictData C v kvs → (k, x) ∈ kvs → Goes W C F v (.dict kt vt) ⟨k, kt, some (.key k)⟩ k kt
  | value {v kt vt kvs k x} : DictData C v kvs → (k, x) ∈ kvs → Goes W C F v (.dict kt vt) ⟨x, vt, some (.value x)⟩ x vt
  | fref {v n u} : F n u → Goes W C F v (.fref n) ⟨v, u, some (.forwardref n)⟩ v u
  | newtype {v n u} : Goes W C F v (.newtype n u) ⟨v, u, none⟩ v u
  | union {v ts u} : u ∈ ts → Goes W C F v (.union ts) ⟨v, .union ts, some (.union u)⟩ v u
  | hint {v e u} : u ∈ (W.enm e).hints → Goes W C F v (.enum e) ⟨v, u, some (.union u)⟩ v u
  | asked {v t i x u a} : pick W C t = .ok (.custom i) → (W.customLoad i v t).Calls x u a → Goes W C F v t ⟨x, u, a⟩ x u

/-- Following the items of a trace one after the other. -/
inductive Leads (W : World) (C : Config) (F : String → Ty → Prop) : Val → Ty → List TraceItem → Val → Ty → Prop
  | here {v t} : Leads W C F v t [] v t
  | step {v t i x u tr w r} : Goes W C F v t i x u → Leads W C F x u tr w r → Leads W C F v t (i :: tr) w r

/-- What the `value` attribute of an exception about `w` shows: `w` itself, its data under the Python names, or nothing. -/
inductive Shown (C : Config) (w : Val) : Val → Prop
  | same : Shown C w w
  | data {kvs kvs'} : DictData C w kvs → (∀ p ∈ kvs', ∃ k, (k, p.2) ∈ kvs) → Shown C w (.dict kvs')
  | nothing : Shown C w .none

/-- The trace of `e` leads from `v` and `t` to the data `e` is about; the traces of the sub-exceptions go on from there. -/
inductive Located (W : World) (C : Config) (F : String → Ty → Prop) : Val → Ty → Exc → Prop
  | mk {v t e w r} : Leads W C F v t e.trace w r → Shown C w e.value → (∀ x ∈ e.subs, x.isTL = true → Located W C F w r x) →
      Located W C F v t e

/-! ## Lemmas -/

theorem Located.here {v : Val} {t u : Ty} {c : ExcClass} {m : Msg} {x : Val} (h : Shown C v x) : Located W C F v t (mkExc c m x u) :=
  .mk .here h (fun _ h => (by cases h))
theorem Located.plain {v : Val} {t : Ty} {c : ExcClass} : Located W C F v t (.plain c) := .mk .here .nothing (fun _ h => (by cases h))
theorem Located.here0 {v : Val} {t : Ty} {c : ExcClass} {m : Msg} : Located W C F v t (mkExc0 c m) := .mk .here .nothing (fun _ h => (by cases h))
theorem Located.step {v : Val} {t : Ty} {i : TraceItem} {x : Val} {u : Ty} {e : Exc} (hg : Goes W C F v t i x u) (h : Located W C F x u e) :
    Located W C F v t (e.push i) := by
  cases h with
  | mk h1 h2 h3 =>
    exact .mk (by rw [Exc.trace_push]; exact .step hg h1) (by rwa [Exc.value_push]) (by rwa [Exc.subs_push])

/-- Errors of handlers that do not call others are about the value they were given. -/
theorem leaf_located {h : Handler} {v : Val} {t : Ty} {e : Exc} (hp : Picked W C t h)
    (hleaf : h.isLeaf = true) (ho : ∀ rec : Rec, step W C rec h v t = M.lift (.error e)) :
    (∃ c m, e = mkExc c m v t) ∨ ∃ c, e = .plain c := by
  have hs := leaf_err ho
  cases hp with
  | none =>
    simp only [step, noneload] at hs
    split at hs <;> cases hs; exact Or.inl ⟨_, _, rfl⟩
  | basic hb hn =>
    simp only [step, basicload] at hs
    split at hs
    · split at hs
      · rename_i p _ _
        cases hc : pyCall W (.prim p) v with
        | ok x => rw [hc] at hs; cases hs
        | error e => rw [hc] at hs; dsimp only at hs; (repeat' split at hs) <;> cases hs <;> exact Or.inl ⟨_, _, rfl⟩
      · cases hs; exact Or.inl ⟨_, _, rfl⟩
    · cases hs
  | lit =>
    simp only [step, literalload] at hs
    split at hs <;> cases hs; exact Or.inl ⟨_, _, rfl⟩
  | dt =>
    rename_i k
    simp only [step, datetimeload] at hs
    cases hx : dtParse W k v with
    | ok x => rw [hx] at hs; cases hs
    | error x =>
      rw [hx] at hs; dsimp only at hs
      (repeat' split at hs) <;> cases hs <;> first | exact Or.inl ⟨_, _, rfl⟩ | exact Or.inr ⟨_, rfl⟩
  | pattern =>
    simp only [step, patternload] at hs
    cases hx : patCompile W v with
    | ok x => rw [hx] at hs; cases hs
    | error x =>
      rw [hx] at hs; dsimp only at hs
      (repeat' split at hs) <;> cases hs <;> first | exact Or.inl ⟨_, _, rfl⟩ | exact Or.inr ⟨_, rfl⟩
  | timedelta =>
    simp only [step, timedeltaload] at hs
    cases hx : tdSeconds W v with
    | ok x => rw [hx] at hs; cases hs
    | error x =>
      rw [hx] at hs; dsimp only at hs
      (repeat' split at hs) <;> cases hs <;> first | exact Or.inl ⟨_, _, rfl⟩ | exact Or.inr ⟨_, rfl⟩
  | strcons =>
    rename_i c _
    simp only [step, strconstructload] at hs
    cases hx : pyCall W (.strcons c) v with
    | ok x => rw [hx] at hs; cases hs
    | error e => rw [hx] at hs; dsimp only at hs; (repeat' split at hs) <;> cases hs <;> exact Or.inl ⟨_, _, rfl⟩
  | any => simp only [step, anyload] at hs; cases hs
  | coll => rename_i k t; cases k <;> cases hleaf
  | obj => rename_i c; revert hleaf; cases (W.cls c).kind <;> intro hleaf <;> cases hleaf
  | bare hb => rcases hb with rfl | rfl | rfl | rfl | rfl <;> cases hleaf
  | _ => cases hleaf

/-- What a step guarantees about traces. -/
def TraceInv (W : World) (C : Config) (F : String → Ty → Prop) (h : Handler) (v : Val) (t : Ty) (o : Except Exc Val) : Prop :=
  pick W C t = .ok h → ∀ e, o = .error e → e.isTL = true → Located W C F v t e

theorem asDict_data {v : Val} {kvs : List (Val × Val)} (h : DictData C v kvs) : asDict C v = .dict kvs := by
  rcases h with rfl | ⟨fs, rfl, h1, rfl⟩
  · rfl
  · simp [asDict, dictequivalence, h1]

theorem candid_picked (hd : Candid W C) {t : Ty} {h : Handler} (hp : pick W C t = .ok h) : Picked W C t h ∨ ∃ i, h = .custom i :=
  (hd.extended t h hp).imp (fun hs => picked_of_stock hs) id

theorem Config.Default.candid (hd : C.Default) : Candid W C where
  extended t h hp := Or.inl ((hd.usual (W := W) (t := t)).symm.trans hp)
  own i _ _ hp := absurd (pick_installed hp) (not_installed hd i)
  served i _ _ _ _ _ hp := absurd (pick_installed hp) (not_installed hd i)

theorem lookupExc_located {v : Val} {t u : Ty} {c k : ExcClass} {m : Msg} {x : Val} (h : Shown C v x) :
    Located W C F v t (lookupExc (mkExc k m x u) c) := by
  unfold lookupExc; split
  · exact .here h
  · exact .plain

/-- What a forthright handler raises is located. -/
theorem script_located (hd : Candid W C) {v : Val} {t : Ty} {i : Nat} (hi : pick W C t = .ok (.custom i)) {p : Script} {o : Except Exc Val}
    (hs : ScriptSem W C (fun h v t o => pick W C t = .ok h → ∀ e, o = .error e → e.isTL = true → Located W C F v t e) p o)
    (hp : p.Forthright v) (hc : ∀ x u a, p.Calls x u a → (W.customLoad i v t).Calls x u a) {e : Exc} (he : o = .error e) (htl : e.isTL = true) :
    Located W C F v t e := by
  induction hs generalizing e with
  | ret => cases he
  | raise =>
    cases he
    obtain ⟨h1, h2, h3⟩ := hp htl
    exact .mk (by rw [h1]; exact .here) (h3.elim (fun h => by rw [h]; exact .same) (fun h => by rw [h]; exact .nothing)) (by rw [h2]; intro _ h; cases h)
  | @call x u a next o o' hl hn ih =>
    cases o with
    | ok r => exact ih (hp.1 r) (fun _ _ _ h => hc _ _ _ (.later h)) he htl
    | error e1 =>
      rcases hp.2 e1 with h | h
      · rw [h] at hn
        cases hn; cases he
        have hx := hc _ _ _ (.here (v := x) (t := u) (a := a) (next := next))
        cases hl with
        | noHandler hno => obtain ⟨h', hh⟩ := hd.served _ _ _ _ _ _ hi hx; rw [hno] at hh; cases hh
        | err hp' hP =>
          rename_i e0
          unfold loadExc at htl ⊢
          split
          · rename_i h'; exact .step (.asked hi hx) (hP hp' _ rfl h')
          · rename_i hn; rw [if_neg hn] at htl; cases htl
      · exact ih h (fun _ _ _ h => hc _ _ _ (.later h)) he htl

theorem trace_step (hd : Candid W C) {F F' : String → Ty → Prop} (hF : ∀ n u, F n u → F' n u) (h : Handler) (v : Val) (t : Ty)
    (o : Except Exc Val) (hs : StepSem W C F (TraceInv W C F') h v t o) : TraceInv W C F' h v t o := by
  intro hp e he htl
  have hpk : (∀ i, h ≠ .custom i) → Picked W C t h := fun hn => (candid_picked hd hp).resolve_right (fun ⟨i, hi⟩ => hn i hi)
  -- a nested `load` adds one item
  have hload : ∀ {x u a e}, LoadSem W C (TraceInv W C F') x u a (.error e) → e.isTL = true →
      (∃ c, pick W C u = .error c ∧ e = lookupExc (mkExc .tlType (.noHandler u) x u) c) ∨ ∃ e', e = e'.push ⟨x, u, a⟩ ∧ Located W C F' x u e' := by
    intro x u a e h htl
    cases h with
    | noHandler hn => exact Or.inl ⟨_, hn, rfl⟩
    | err hp h =>
      rename_i e0
      unfold loadExc at htl ⊢
      split
      · rename_i h'; exact Or.inr ⟨e0, rfl, h hp _ rfl h'⟩
      · rename_i hn; rw [if_neg hn] at htl; cases htl
  have hdictv : ∀ {tr kvs kvs'}, Mangled C tr v kvs kvs' → Shown C v (.dict kvs') := fun hm => .data hm.1 (fun p hp => hm.value_mem hp)
  cases hs with
  | custom hi hsc => exact script_located hd hp hsc (hd.own _ _ _ hp) (fun _ _ _ h => h) he htl
  | leaf hleaf h =>
    subst he
    rcases leaf_located (hpk (fun i hi => by subst hi; cases hleaf)) hleaf h with ⟨c, m, rfl⟩ | ⟨c, rfl⟩
    · exact .here .same
    · exact .plain
  | mismatch hl hs => cases he; cases htl
  | iterDict => cases he; exact .here .same
  | iterLookup _ hn => cases he; exact lookupExc_located .same
  | iterNot => cases he; exact .here .same
  | @iterErr _ _ k k' et h' xs _ hk _ hx hp' hit =>
    cases he
    obtain ⟨j, x, hj, h⟩ := hit.error rfl
    rw [Nat.zero_add] at h
    rcases h with ⟨e', hel, rfl⟩ | ⟨c, rfl⟩
    · unfold elemError
      split
      · rename_i h'
        refine .step (.elem hx hj) ?_
        cases hel with
        | call _ hP => exact hP hp' _ rfl h'
      · split
        · exact .here .same
        · exact .here0
    · unfold elemError
      split
      · exact .step (.elem hx hj) .plain
      · split
        · exact .here .same
        · exact .here0
  | iter => cases he
  | tupDict => cases he; exact .here .same
  | tupLen hn => cases he; cases htl
  | tupSize => cases he; exact .here .same
  | @tupErr _ ts xs _ _ hx _ htup =>
    cases he
    obtain ⟨j, x, u, hj, hu, e', hel, rfl⟩ := htup.error rfl
    rw [Nat.zero_add]
    unfold elemError
    split
    · rename_i h'
      refine .step (.pos hx hj hu) ?_
      cases hel with
      | noHandler => exact .plain
      | call hp' _ hP => exact hP hp' _ rfl h'
    · split
      · exact .here .same
      · exact .here0
  | tup => cases he
  | dictLookup _ hn => cases he; exact lookupExc_located .same
  | dictNot => cases he; exact .here .same
  | dictFast => cases he
  | dictSlow => cases he
  | @dictErr _ _ _ _ _ _ e0 hdata hk' hv' hf =>
    cases he
    by_cases hattr : e0.cls.isAttr = true
    · rw [if_pos hattr]
      rw [asDict_data hdata]
      exact .here (.data hdata (fun p hp => ⟨p.1, hp⟩))
    · rw [if_neg hattr] at htl ⊢
      obtain ⟨p, hpm, h | h | ⟨rfl, k', h, hh⟩⟩ := hf.error rfl
      · rcases hload h htl with ⟨c, hn, _⟩ | ⟨e', rfl, hl⟩
        · rw [hk'] at hn; cases hn
        · exact .step (.key (x := p.2) hdata hpm) hl
      · rcases hload h htl with ⟨c, hn, _⟩ | ⟨e', rfl, hl⟩
        · rw [hv'] at hn; cases hn
        · exact .step (.value (k := p.1) hdata hpm) hl
      · cases htl
  | obj hob =>
    rename_i c
    subst he
    cases hob with
    | stop => cases htl
    | mangle _ _ he => obtain ⟨cl, m, h1, rfl⟩ := he; exact .here .same
    | noDict => exact .here .same
    | missing _ hm => exact .here (hdictv hm)
    | extra _ hm => exact .here (hdictv hm)
    | extraKey => cases htl
    | field hi hm _ hfs =>
      obtain ⟨m, x, ft, hmem, hh, ⟨h', e', hp', hP, rfl⟩ | ⟨c', hn, rfl⟩⟩ := hfs.error rfl
      · obtain ⟨f, hf, rfl, hft⟩ := hi.hints m ft hh
        obtain ⟨k, hk, hkn⟩ := hm.str_mem hmem
        split
        · rename_i htl'
          refine .step (.field hm.1 (fun p hp => hm.value_mem hp) hf hft hk ?_) (hP hp' _ rfl htl')
          refine hkn.imp id ?_
          intro ha
          have := aget_mem ha
          rw [hi.transforms] at this
          rcases transformsOf_mem _ this with h | ⟨g, hg, h1, h2⟩
          · cases h
          · exact ⟨g, hg, h2, h1⟩
        · rename_i hn; rw [if_neg hn] at htl; exact absurd htl hn
      · exact lookupExc_located (hdictv hm)
    | construct _ _ _ _ hcon =>
      unfold constructExc
      split
      · exact .here0
      · split
        · exact .here0
        · exact .plain
  | unionBasic hb => cases he
  | unionTag hu => cases he; cases htl
  | unionCrash _ hord htry =>
    cases he
    rw [(htry.crashed rfl).1] at htl; cases htl
  | unionOne hne hord htry => cases he
  | unionNone _ hord htry =>
    cases he
    refine .mk .here .same ?_
    intro x hx _
    rcases htry.refused rfl x hx with h | ⟨u, hu, e', hc, htl', rfl⟩
    · cases h
    · refine .step (.union (hord.perm.mem_iff.1 hu)) ?_
      cases hc with
      | noHandler hn => exact lookupExc_located .same
      | call hp' hP => exact hP hp' _ rfl htl'
  | unionMany _ hord htry =>
    cases he
    refine .mk .here .same ?_
    intro x hx _
    rcases htry.refused rfl x hx with h | ⟨u, hu, e', hc, htl', rfl⟩
    · cases h
    · refine .step (.union (hord.perm.mem_iff.1 hu)) ?_
      cases hc with
      | noHandler hn => exact lookupExc_located .same
      | call hp' hP => exact hP hp' _ rfl htl'
  | enumMember hm => cases he
  | enumHints hn hh =>
    obtain ⟨es', rfl, hes⟩ := hh.error he
    refine .mk .here .same ?_
    intro x hx hxtl
    rcases hes x hx with h | ⟨_, rfl⟩ | ⟨u, hu, h⟩
    · cases h
    · cases hxtl
    · rcases hload h hxtl with ⟨c, hn, rfl⟩ | ⟨e', rfl, hl⟩
      · exact lookupExc_located .same
      · exact .step (.hint hu) hl
  | frefDisabled => cases he; exact .here .same
  | frefUnknown => cases he; exact .here .same
  | fref hf _ hl' =>
    subst he
    rcases hload hl' htl with ⟨c, hn, rfl⟩ | ⟨e', rfl, hl⟩
    · exact lookupExc_located .same
    · exact .step (.fref (hF _ _ hf)) hl
  | newtype hl' =>
    subst he
    rcases hload hl' htl with ⟨c, hn, rfl⟩ | ⟨e', rfl, hl⟩
    · exact lookupExc_located .same
    · exact .step .newtype hl

/-- **C31** with handlers added by the user (`Candid`): every TypedloadException leaving `load(v, t)`, for a supported `t`, carries as first trace
item the value and the type given to `load`; the rest of the trace leads from there, through the data and the type and through the calls of the
loader that the handlers of the user make, to the value the exception is about; the traces of its sub-exceptions lead on from that place. -/
theorem C31_user (hd : Candid W C) {s s' : LState} (hs : Reachable W C s) {v : Val} {t : Ty} {e : Exc} (h : Raises W C s v t e s')
    (htl : e.isTL = true) (hsup : ∃ h, pick W C t = .ok h) :
    ∃ tr w r, e.trace = ⟨v, t, none⟩ :: tr ∧ Leads W C (Known W s) v t tr w r ∧ Shown C w e.value ∧
      ∀ x ∈ e.subs, x.isTL = true → Located W C (Known W s) w r x := by
  rcases h.sem (Meets.closed s t) (P := TraceInv W C (Known W s))
      (fun h v t o _ hs => trace_step hd (fun _ _ h => h.2) h v t o hs)
      (hs.good_meets t) .self with ⟨hh, e', hp, hP, rfl⟩ | ⟨c, hp, rfl⟩
  · unfold loadExc at htl ⊢
    by_cases h' : e'.isTL = true
    · rw [if_pos h']
      cases hP hp _ rfl h' with
      | mk h1 h2 h3 => exact ⟨_, _, _, by rw [Exc.trace_push], h1, by rwa [Exc.value_push], by rwa [Exc.subs_push]⟩
    · rw [if_neg h'] at htl; cases htl
  · obtain ⟨h, hh⟩ := hsup; rw [hp] at hh; cases hh

/-- **C31**. Every TypedloadException leaving `load(v, t)`, other than the one for an unsupported `t`, carries as first trace item the
value and the type given to `load`; the rest of the trace leads from there through the data and the type to the value the exception
is about; the traces of its sub-exceptions lead on from that place. -/
theorem C31_trace (hd : C.Default) {s s' : LState} (hs : Reachable W C s) {v : Val} {t : Ty} {e : Exc} (h : Raises W C s v t e s')
    (htl : e.isTL = true) : (index W C t = .error .value ∧ e = mkExc .tlType (.noHandler t) v t) ∨
    ∃ tr w r, e.trace = ⟨v, t, none⟩ :: tr ∧ Leads W C (Known W s) v t tr w r ∧ Shown C w e.value ∧
      ∀ x ∈ e.subs, x.isTL = true → Located W C (Known W s) w r x := by
  cases hp : pick W C t with
  | ok h' => exact Or.inr (C31_user hd.candid hs h htl ⟨h', hp⟩)
  | error c =>
    left
    rcases h.sem (Meets.closed s t) (P := TraceInv W C (Known W s)) (fun h v t o _ hs => trace_step hd.candid (fun _ _ h => h.2) h v t o hs)
        (hs.good_meets t) .self with ⟨hh, e', hp', _, rfl⟩ | ⟨c', hp', rfl⟩
    · rw [hp] at hp'; cases hp'
    · rw [lookupExc_default hd hp']
      refine ⟨?_, rfl⟩
      have := pick_error hd hp'; subst this
      unfold pick at hp'
      cases hi : index W C t with
      | error x => rw [hi] at hp'; cases hp'; rfl
      | ok i =>
        rw [hi] at hp'
        have := (indexFrom_range t _ _ _ hi).2
        dsimp only at hp'
        rw [List.getElem?_eq_getElem (by omega)] at hp'
        cases hp'

/-- The wrong `x` in `[{"x": "no", "zed": "q"}]` for `List[P]` is reported with index and field. -/
example : ∃ e s', Raises Sample.W Sample.C (fresh []) (.list [.dict [(.str "x", .str "no"), (.str "zed", .str "q")]]) (.coll .list (.obj 0)) e s' ∧
    e.isTL = true ∧ e.trace.map (·.ann) = [none, some (.index 0), some (.field "x")] ∧ e.value = .str "no" :=
  ⟨_, _, ⟨9, rfl⟩, rfl, rfl, rfl⟩

end TL
