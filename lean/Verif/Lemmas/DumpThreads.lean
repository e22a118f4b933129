import Verif.Lemmas.DumpCoh
/-!
# Programs that share a dumper with others

`DK W C m m'`: while the others keep the caches of the dumper right, so does `m`, and it ends as `m'` (which uses no caches) does, whatever the others do.
A program running alone is the sequential dumper (`TD.dump_exec`).
-/

namespace TL

variable {W : World} {C : DConfig}

/-- `m` keeps the caches right, relying on the others to do so, and has an outcome in `Q`. -/
def DSafe (W : World) (C : DConfig) {α : Type} (Q : Res Unit Exc α → Prop) : DProg α → Prop
  | .ret a => Q (.ok a ())
  | .raise e => Q (.err e ())
  | .stuck => Q .div
  | .act f k => ∀ s, DCoh W C s → DCoh W C (f s) ∧ DSafe W C Q (k s)

/-- `m` ends as `m'` does. -/
def DK (W : World) (C : DConfig) {α : Type} (m : DProg α) (m' : M Unit Exc α) : Prop := DSafe W C (fun r => r = m' ()) m

theorem DSafe.weaken {α : Type} {Q Q' : Res Unit Exc α → Prop} (hq : ∀ r, Q r → Q' r) : ∀ {m : DProg α}, DSafe W C Q m → DSafe W C Q' m := by
  intro m
  induction m with
  | ret a => intro h; exact hq _ h
  | raise e => intro h; exact hq _ h
  | stuck => intro h; exact hq _ h
  | act f k ih => intro h s hs; exact ⟨(h s hs).1, ih s (h s hs).2⟩

theorem DSafe.handle {α β : Type} {Q : Res Unit Exc α → Prop} {Q' : Res Unit Exc β → Prop} {f : α → DProg β} {g : Exc → DProg β}
    (hf : ∀ a, Q (.ok a ()) → DSafe W C Q' (f a)) (hg : ∀ e, Q (.err e ()) → DSafe W C Q' (g e)) (hd : Q .div → Q' .div) :
    ∀ {m : DProg α}, DSafe W C Q m → DSafe W C Q' (m.handle f g) := by
  intro m
  induction m with
  | ret a => intro h; exact hf a h
  | raise e => intro h; exact hg e h
  | stuck => intro h; exact hd h
  | act h k ih => intro hs s h1; exact ⟨(hs s h1).1, ih s (hs s h1).2⟩

theorem DCoh.setHc {s : DState} (hb : C.ByType W) (hs : DCoh W C s) {v : Val} (hv : LegalTop W v) {h : DHandler} (hp : dPick W C v = .ok h) :
    DCoh W C { s with hc := aset s.hc (typeOf v) h } := by
  refine ⟨fun t h' h1 w hw ht => ?_, hs.dc⟩
  dsimp only at h1
  rw [aget_aset] at h1
  split at h1
  · rename_i e; cases h1; exact dPick_typeOf hb hv hw (by rw [ht, ← e]) hp
  · exact hs.hc t h' h1 w hw ht

theorem DCoh.setDc {s : DState} (hs : DCoh W C s) (c : Nat) : DCoh W C { s with dc := aset s.dc c (mkDataDesc W (W.cls c)) } := by
  refine ⟨hs.hc, fun c' d h => ?_⟩
  dsimp only at h
  rw [aget_aset] at h
  split at h
  · rename_i e; subst e; cases h; rfl
  · exact hs.dc c' d h

namespace DK
variable {α β : Type}

theorem pure (a : α) : DK W C (Pure.pure a) (Pure.pure a) := rfl
theorem raise (e : Exc) : DK W C (DProg.raise e : DProg α) (M.throw e) := rfl

theorem handle {m : DProg α} {m' : M Unit Exc α} {f : α → DProg β} {f' : α → M Unit Exc β} {g : Exc → DProg β} {g' : Exc → M Unit Exc β}
    (hm : DK W C m m') (hf : ∀ a, DK W C (f a) (f' a)) (hg : ∀ e, DK W C (g e) (g' e)) : DK W C (m.handle f g) (M.handle m' f' g') := by
  refine DSafe.handle (fun a ha => ?_) (fun e he => ?_) (fun hd => ?_) hm
  · refine (hf a).weaken (fun r hr => ?_)
    simp only [M.handle, ← ha]; exact hr
  · refine (hg e).weaken (fun r hr => ?_)
    simp only [M.handle, ← he]; exact hr
  · simp only [M.handle, ← hd]

theorem bind {m : DProg α} {m' : M Unit Exc α} {f : α → DProg β} {f' : α → M Unit Exc β}
    (hm : DK W C m m') (hf : ∀ a, DK W C (f a) (f' a)) : DK W C (m >>= f) (m' >>= f') := by
  refine DSafe.handle (fun a ha => ?_) (fun e he => ?_) (fun hd => ?_) hm
  · refine (hf a).weaken (fun r hr => ?_)
    rw [M.bind_apply, ← ha]; exact hr
  · show _ = _
    rw [M.bind_apply, ← he]
  · rw [M.bind_apply, ← hd]

theorem resolve (hb : C.ByType W) {v : Val} (hv : LegalTop W v) : DK W C (TD.resolve W C v) (match dPick W C v with
    | .error e => M.throw e
    | .ok h => Pure.pure h) := by
  intro s hs
  refine ⟨hs, ?_⟩
  show DSafe W C _ (match aget s.hc (typeOf v) with
    | some h => Pure.pure h
    | none => _)
  cases hg : aget s.hc (typeOf v) with
  | some h => rw [hs.hc _ _ hg v hv rfl]; exact rfl
  | none =>
    dsimp only
    cases hh : dPick W C v with
    | error e => exact rfl
    | ok h => exact fun s' hs' => ⟨hs'.setHc hb hv hh, rfl⟩

theorem desc (c : Nat) : DK W C (TD.desc W c) (Pure.pure (mkDataDesc W (W.cls c))) := by
  intro s hs
  refine ⟨hs, ?_⟩
  show DSafe W C _ (match aget s.dc c with
    | some d => Pure.pure d
    | none => _)
  cases hg : aget s.dc c with
  | some d => rw [hs.dc _ _ hg]; exact rfl
  | none => exact fun s' hs' => ⟨hs'.setDc c, rfl⟩

section
variable {rec : TD.Rec} {rec' : DRec Unit} (hrec : ∀ v t, Legal W v → DK W C (rec v t) (rec' v t))
include hrec

theorem list (xs : List Val) (hl : ∀ x ∈ xs, Legal W x) : DK W C (TD.dumpList rec xs) (dumpList rec' xs) := by
  induction xs with
  | nil => exact pure _
  | cons x xs ih =>
    exact bind (hrec _ _ (hl x (by simp))) (fun _ => bind (ih (fun x hx => hl x (by simp [hx]))) (fun _ => pure _))

theorem dict (kvs : List (Val × Val)) (hl : ∀ p ∈ kvs, Legal W p.1 ∧ Legal W p.2) : ∀ acc,
    DK W C (TD.dumpDict W rec kvs acc) (dumpDict W rec' kvs acc) := by
  induction kvs with
  | nil => intro acc; exact pure _
  | cons p kvs ih =>
    intro acc
    obtain ⟨k, x⟩ := p
    have h := hl (k, x) (by simp)
    refine bind (hrec _ _ h.1) (fun k' => bind (hrec _ _ h.2) (fun x' => ?_))
    split
    · exact ih (fun p hp => hl p (by simp [hp])) _
    · exact raise _

theorem nt (defaults : List (String × Val)) (fs : List (String × Val)) (hl : ∀ p ∈ fs, Legal W p.2) :
    DK W C (TD.dumpNt C rec defaults fs) (dumpNt C rec' defaults fs) := by
  induction fs with
  | nil => exact pure _
  | cons p fs ih =>
    obtain ⟨k, x⟩ := p
    have ih' := ih (fun p hp => hl p (by simp [hp]))
    unfold TD.dumpNt dumpNt
    split
    · exact ih'
    · exact bind (hrec _ _ (hl (k, x) (by simp))) (fun _ => bind ih' (fun _ => pure _))

theorem fields (cd : ClassDef) (defaults : List (String × Val)) (hints : List (String × Ty)) (vals : List (String × Val))
    (hl : ∀ p ∈ vals, Legal W p.2) (fs : List String) : ∀ acc,
    DK W C (TD.dumpFields C rec cd defaults hints vals fs acc) (dumpFields W C rec' cd defaults hints vals fs acc) := by
  induction fs with
  | nil => intro acc; exact pure _
  | cons f fs ih =>
    intro acc
    unfold TD.dumpFields dumpFields
    cases hg : aget vals f with
    | none => exact raise _
    | some x =>
      dsimp only
      split
      · exact ih _
      · exact bind (hrec _ _ (hl _ (aget_mem hg))) (fun _ => ih _)

theorem attrs (vals : List (String × Val)) (hl : ∀ p ∈ vals, Legal W p.2) (fs : List Field) : ∀ acc,
    DK W C (TD.dumpAttrs C rec vals fs acc) (dumpAttrs C rec' vals fs acc) := by
  induction fs with
  | nil => intro acc; exact pure _
  | cons f fs ih =>
    intro acc
    unfold TD.dumpAttrs dumpAttrs
    cases hg : aget vals f.name with
    | none => exact raise _
    | some x =>
      dsimp only
      cases hr : f.repr with
      | false => exact ih _
      | true =>
        cases f.default with
        | none =>
          cases C.hidedefault <;> exact bind (hrec _ _ (hl _ (aget_mem hg))) (fun _ => ih _)
        | some d =>
          have hb := fun (y : Val) => ih (dset acc (.str ((aget f.metadata C.mangleKey).getD f.name)) y)
          cases hh : C.hidedefault with
          | false => exact bind (hrec _ _ (hl _ (aget_mem hg))) hb
          | true =>
            cases hq : pyEq x d with
            | false => simp only [hq]; exact bind (hrec _ _ (hl _ (aget_mem hg))) hb
            | true => simp only [hq]; exact ih _

theorem script (p : Script) (hp : ∀ x u, p.Asks x u → Legal W x) : DK W C (TD.script rec p) (p.run (fun x u _ => rec' x u)) := by
  induction p with
  | ret v => exact pure _
  | raise e => exact raise _
  | call v t a next ih =>
    exact handle (hrec v t (hp v t .here)) (fun r => ih (.ok r) (fun x u h => hp x u (.later h))) (fun e => ih (.error e) (fun x u h => hp x u (.later h)))

theorem step (h : DHandler) (v : Val) (t : Ty) (hv : Legal W v)
    (hcu : ∀ i, h = .custom i → ∀ x u, (W.dumpCustom i v t).Asks x u → Legal W x) :
    DK W C (TD.step W C rec h v t) (dstep W C (fun c => Pure.pure (mkDataDesc W (W.cls c))) rec' h v t) := by
  cases h with
  | identity => exact pure _
  | namedtuple =>
    cases v with
    | nt c fs => exact bind (nt hrec _ _ (fun p hp => hv.inside (.item (n := p.1) .self hp))) (fun _ => pure _)
    | _ => exact raise _
  | dataclass =>
    cases v with
    | inst c fs =>
      exact bind (desc c) (fun _ => bind (fields hrec _ _ _ _ (fun p hp => hv.inside (.attr (n := p.1) .self hp)) _ _) (fun _ => pure _))
    | _ => exact raise _
  | iterator =>
    unfold TD.step dstep
    dsimp only
    unfold TD.iteratordump iteratordump
    split
    · exact pure _
    · refine bind (list hrec _ (fun x hx => ?_)) (fun _ => pure _)
      cases v with
      | seq k xs => exact hv.inside (.elem .self hx)
      | nt c fs =>
        obtain ⟨p, hp, rfl⟩ := List.mem_map.1 hx
        exact hv.inside (.item (n := p.1) .self hp)
      | _ => cases hx
  | enum =>
    cases v with
    | enumv e n =>
      unfold TD.step dstep
      dsimp only
      cases hm : aget (W.enm e).members n with
      | none => exact raise _
      | some x => exact hrec _ _ (hv.inside (.member .self hm))
    | _ => exact raise _
  | dict =>
    cases v with
    | dict kvs =>
      exact bind (dict hrec _ (fun p hp => ⟨hv.inside (.key (x := p.2) .self hp), hv.inside (.val (k := p.1) .self hp)⟩) _) (fun _ => pure _)
    | _ => exact raise _
  | attrs =>
    cases v with
    | inst c fs => exact bind (attrs hrec _ (fun p hp => hv.inside (.attr (n := p.1) .self hp)) _ _) (fun _ => pure _)
    | _ => exact raise _
  | date =>
    show DK W C (TD.pureCall (datetimedump W C v)) (datetimedump W C v)
    unfold TD.pureCall DK
    cases hx : (datetimedump W C v : M Unit Exc Val) () <;> exact rfl
  | timedelta => cases v <;> first | exact raise _ | exact pure _
  | pattern => cases v <;> first | exact raise _ | exact pure _
  | str => exact pure _
  | custom i => exact script hrec _ (hcu i rfl)
end

theorem dump (hb : C.ByType W) (n : Nat) : ∀ v t, Legal W v → DK W C (TD.dump W C n v t) (Ref.dump W C n v t) := by
  induction n with
  | zero => intro v t _; exact rfl
  | succ n ih =>
    intro v t hv
    unfold TD.dump
    refine DSafe.handle (fun a ha => ?_) (fun e he => ?_) (fun hd => ?_) (resolve hb hv.top)
    · cases hp : dPick W C v with
      | error e => rw [hp] at ha; cases ha
      | ok h =>
        rw [hp] at ha
        cases ha
        obtain ⟨p, hm, hpe⟩ := dPick_mem hp
        refine (step ih a v t hv (fun i hi x u ha => hb.asks p hm i (hpe.trans hi) v t hv x u ha)).weaken (fun r hr => ?_)
        rw [hr]; simp only [Ref.dump, hp]
    · cases hp : dPick W C v with
      | ok h => rw [hp] at he; cases he
      | error e' =>
        rw [hp] at he
        cases he
        show _ = _
        simp only [Ref.dump, hp]; rfl
    · cases hp : dPick W C v <;> rw [hp] at hd <;> cases hd
end DK

/-! ## Any number of threads -/

/-- The caches are right, and each thread is safe from then on, its outcome being in `Q i`. -/
structure DAllSafe (W : World) (C : DConfig) (Q : Nat → Res Unit Exc Val → Prop) (c : DConf) : Prop where
  inv : DCoh W C c.state
  safe : ∀ (i : Nat) m, c.threads[i]? = some m → DSafe W C (Q i) m

theorem DAllSafe.step {Q : Nat → Res Unit Exc Val → Prop} {c c' : DConf} (h : DAllSafe W C Q c) (hs : c.Step c') : DAllSafe W C Q c' := by
  cases hs with
  | mk before f k after =>
    rename_i s
    have h1 := h.safe before.length (.act f k) (by simp)
    obtain ⟨h2, h4⟩ := h1 s h.inv
    refine ⟨h2, fun i m hm => ?_⟩
    by_cases he : i = before.length
    · subst he
      simp only [List.getElem?_append_right (Nat.le_refl _), Nat.sub_self, List.getElem?_cons_zero] at hm
      cases hm
      exact h4
    · refine h.safe i m ?_
      show (before ++ DProg.act f k :: after)[i]? = some m
      rw [List.getElem?_append] at hm ⊢
      split at hm
      · rename_i hl; rw [if_pos hl]; exact hm
      · rename_i hl
        rw [if_neg hl]
        have : i - before.length = (i - before.length - 1) + 1 := by omega
        rw [this, List.getElem?_cons_succ] at hm ⊢
        exact hm

theorem DAllSafe.steps {Q : Nat → Res Unit Exc Val → Prop} {c c' : DConf} (h : DAllSafe W C Q c) (hs : c.Steps c') : DAllSafe W C Q c' := by
  induction hs with
  | refl => exact h
  | next _ h1 ih => exact ih.step h1

/-- The threads at the start. -/
theorem DCoh.start (hb : C.ByType W) {s : DState} (h : DCoh W C s) {jobs : List DJob} (hl : ∀ j ∈ jobs, Legal W j.value) :
    DAllSafe W C (fun i r => ∀ j, jobs[i]? = some j → r = Ref.dump W C j.fuel j.value j.type ()) (DConf.start W C s jobs) := by
  refine ⟨h, fun i m hm => ?_⟩
  simp only [DConf.start, List.getElem?_map, Option.map_eq_some_iff] at hm
  obtain ⟨j, hj, rfl⟩ := hm
  refine (DK.dump hb j.fuel j.value j.type (hl j (List.mem_of_getElem? hj))).weaken (fun r hr j' hj' => ?_)
  rw [hj] at hj'; cases hj'
  exact hr

/-- Threads that share a dumper keep its caches right. -/
theorem DCoh.shared (hb : C.ByType W) {s : DState} (h : DCoh W C s) {jobs : List DJob} (hl : ∀ j ∈ jobs, Legal W j.value) {c : DConf}
    (hs : (DConf.start W C s jobs).Steps c) : DCoh W C c.state := ((h.start hb hl).steps hs).inv

/-! ## A thread running alone is the sequential dumper -/

namespace DProg
variable {α β : Type}

theorem exec_handle (m : DProg α) (f : α → DProg β) (g : Exc → DProg β) :
    (m.handle f g).exec = M.handle m.exec (fun a => (f a).exec) (fun e => (g e).exec) := by
  funext s
  induction m generalizing s with
  | ret a => rfl
  | raise e => rfl
  | stuck => rfl
  | act h k ih => exact ih s (h s)

theorem exec_bind (m : DProg α) (f : α → DProg β) : (m >>= f).exec = m.exec >>= fun a => (f a).exec := by
  show (m.handle f raise).exec = _
  rw [exec_handle]
  funext s
  rw [M.bind_apply]
  simp only [M.handle]
  cases m.exec s <;> rfl

theorem exec_pure (a : α) : (Pure.pure a : DProg α).exec = (Pure.pure a : D α) := rfl
theorem exec_raise (e : Exc) : (DProg.raise e : DProg α).exec = (M.throw e : D α) := rfl
theorem exec_read : DProg.read.exec = (M.get : D DState) := rfl
theorem exec_write (f : DState → DState) : (DProg.write f).exec = (M.modify f : D Unit) := rfl
theorem exec_ite {c : Prop} [Decidable c] (a b : DProg α) : (if c then a else b).exec = if c then a.exec else b.exec := by
  split <;> rfl
end DProg

namespace TD
open DProg

theorem resolve_exec (v : Val) : (resolve W C v).exec = dResolve W C v := by
  simp only [resolve, dResolve, exec_bind, exec_read]
  congr 1
  funext s
  cases aget s.hc (typeOf v) with
  | some h => rfl
  | none =>
    dsimp only
    cases dPick W C v <;> rfl

theorem desc_exec (c : Nat) : (desc W c).exec = dataclassDesc W c := by
  simp only [desc, dataclassDesc, exec_bind, exec_read]
  congr 1
  funext s
  cases aget s.dc c <;> rfl

section
variable {rec : Rec} {rec' : DRec DState} (hrec : ∀ v t, (rec v t).exec = rec' v t)
include hrec

theorem dumpList_exec (xs : List Val) : (dumpList rec xs).exec = TL.dumpList rec' xs := by
  induction xs with
  | nil => rfl
  | cons x xs ih => simp only [dumpList, TL.dumpList, exec_bind, exec_pure, hrec, ih]

theorem dumpDict_exec (kvs : List (Val × Val)) : ∀ acc, (dumpDict W rec kvs acc).exec = TL.dumpDict W rec' kvs acc := by
  induction kvs with
  | nil => intro acc; rfl
  | cons p kvs ih => intro acc; simp only [dumpDict, TL.dumpDict, exec_bind, exec_ite, exec_raise, hrec, ih]

theorem dumpNt_exec (defaults fs : List (String × Val)) : (dumpNt C rec defaults fs).exec = TL.dumpNt C rec' defaults fs := by
  induction fs with
  | nil => rfl
  | cons p fs ih => simp only [dumpNt, TL.dumpNt, exec_bind, exec_ite, exec_pure, hrec, ih]

theorem dumpFields_exec (cd : ClassDef) (defaults : List (String × Val)) (hints : List (String × Ty)) (vals : List (String × Val))
    (fs : List String) : ∀ acc, (dumpFields C rec cd defaults hints vals fs acc).exec = TL.dumpFields W C rec' cd defaults hints vals fs acc := by
  induction fs with
  | nil => intro acc; rfl
  | cons f fs ih =>
    intro acc
    simp only [dumpFields, TL.dumpFields]
    cases aget vals f with
    | none => rfl
    | some x =>
      simp only [exec_bind, exec_ite, hrec, ih]
      cases cd.fields.find? (fun g => g.name == f) <;> rfl

theorem dumpAttrs_exec (vals : List (String × Val)) (fs : List Field) : ∀ acc, (dumpAttrs C rec vals fs acc).exec = TL.dumpAttrs C rec' vals fs acc := by
  induction fs with
  | nil => intro acc; rfl
  | cons f fs ih =>
    intro acc
    simp only [dumpAttrs, TL.dumpAttrs]
    cases aget vals f.name with
    | none => rfl
    | some x =>
      simp only [exec_bind, exec_ite, hrec, ih]
      cases f.default <;> rfl

theorem script_exec (p : Script) : (script rec p).exec = p.run (fun x u _ => rec' x u) := by
  induction p with
  | ret v => rfl
  | raise e => rfl
  | call v t a next ih => simp only [script, Script.run, exec_handle, hrec, ih]

theorem step_exec (h : DHandler) (v : Val) (t : Ty) : (step W C rec h v t).exec = dstep W C (dataclassDesc W) rec' h v t := by
  cases h with
  | namedtuple =>
    cases v with
    | nt c fs => simp only [step, dstep, exec_bind, exec_pure, dumpNt_exec hrec]
    | _ => rfl
  | dataclass =>
    cases v with
    | inst c fs => simp only [step, dstep, exec_bind, exec_pure, desc_exec, dumpFields_exec (W := W) hrec]
    | _ => rfl
  | iterator => simp only [step, dstep, iteratordump, TL.iteratordump, exec_ite, exec_bind, exec_pure, dumpList_exec hrec]
  | enum =>
    cases v with
    | enumv e n =>
      simp only [step, dstep]
      cases aget (W.enm e).members n with
      | none => rfl
      | some x => exact hrec _ _
    | _ => rfl
  | dict =>
    cases v with
    | dict kvs => simp only [step, dstep, exec_bind, exec_pure, dumpDict_exec hrec]
    | _ => rfl
  | attrs =>
    cases v with
    | inst c fs => simp only [step, dstep, exec_bind, exec_pure, dumpAttrs_exec hrec]
    | _ => rfl
  | date =>
    show (pureCall (datetimedump W C v)).exec = datetimedump W C v
    funext s
    unfold pureCall datetimedump
    cases C.isodates with
    | true => rfl
    | false =>
      cases v with
      | time h mi s us tz => cases tz <;> rfl
      | datetime y m d h mi s us tz => cases tz <;> rfl
      | _ => rfl
  | timedelta => cases v <;> rfl
  | pattern => cases v <;> rfl
  | identity => rfl
  | str => rfl
  | custom i => exact script_exec hrec _
end

/-- A thread that uses the dumper alone makes the sequential call. -/
theorem dump_exec (n : Nat) : ∀ v t, (dump W C n v t).exec = TL.dump W C n v t := by
  induction n with
  | zero => intro v t; rfl
  | succ n ih =>
    intro v t
    simp only [dump, TL.dump, exec_bind, resolve_exec, step_exec ih]
end TD

end TL
