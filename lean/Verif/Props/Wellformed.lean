import Verif.Spec.Wellformed
import Verif.Lemmas.Total
import Verif.Lemmas.Conversion
import Verif.Props.ThreadsSound
import Verif.Props.Dumping
/-!
# C76: what load returns can exist
-/

namespace TL

variable {W : World} {C : Config}

theorem legal_prim {v : Val} {p : Prim} (h : typeOf v = .prim p) : Legal W v := DumpPrim.legal_basic h
theorem legal_str (x : String) : Legal W (.str x) := legal_prim (p := .str) rfl
theorem legal_int (x : Int) : Legal W (.int x) := legal_prim (p := .int) rfl

theorem legal_pyIter {v : Val} {xs : List Val} (hv : Legal W v) (h : pyIter v = some xs) {x : Val} (hx : x ∈ xs) : Legal W x := by
  cases v <;> simp [pyIter] at h <;> subst h
  · exact (List.mem_map.1 hx).elim fun c hc => hc.2 ▸ legal_str _
  · exact (List.mem_map.1 hx).elim fun c hc => hc.2 ▸ legal_int _
  · exact hv.inside (.elem .self hx)
  · obtain ⟨q, hq, rfl⟩ := List.mem_map.1 hx; exact hv.inside (.key (x := q.2) .self hq)
  · obtain ⟨q, hq, rfl⟩ := List.mem_map.1 hx; exact hv.inside (.item (n := q.1) .self hq)

theorem legal_dictData {v : Val} {kvs : List (Val × Val)} (hv : Legal W v) (h : DictData C v kvs) {p : Val × Val} (hp : p ∈ kvs) :
    Legal W p.1 ∧ Legal W p.2 := by
  rcases h with rfl | ⟨fs, rfl, _, rfl⟩
  · exact ⟨hv.inside (.key (x := p.2) .self hp), hv.inside (.val (k := p.1) .self hp)⟩
  · obtain ⟨q, hq, rfl⟩ := List.mem_map.1 hp
    exact ⟨legal_str _, hv.inside (.arg (n := q.1) .self hq)⟩

theorem legal_mangled {tr : List (String × String)} {v : Val} {kvs kvs' : List (Val × Val)} (hv : Legal W v) (h : Mangled C tr v kvs kvs')
    {p : Val × Val} (hp : p ∈ kvs') : Legal W p.2 := by
  rcases h.2 with ⟨_, rfl⟩ | ⟨_, _, h2⟩
  · exact (legal_dictData hv h.1 hp).2
  · rcases mangleLoop_values _ _ _ _ _ h2 p hp with ⟨q, hq, he⟩ | ⟨q, hq, _⟩
    · rw [← he]; exact (legal_dictData hv h.1 hq).2
    · cases hq

theorem legal_seq {k : SeqKind} {xs : List Val} (h : ∀ x ∈ xs, Legal W x) (hs : k.isSet = true → SetLike W xs) : Legal W (.seq k xs) := by
  refine .of_parts (fun hk => ⟨(hs hk).2, (hs hk).1⟩) (fun x hx => ?_)
  cases hx with | elem hx => exact h x hx

theorem legal_dict {kvs : List (Val × Val)} (h : DictAcc W (Legal W) (Legal W) kvs) : Legal W (.dict kvs) := by
  refine .of_parts ⟨h.set.2, fun p hp => h.set.1 _ (List.mem_map.2 ⟨p, hp, rfl⟩)⟩ (fun x hx => ?_)
  cases hx with
  | key hx => exact h.keys _ hx
  | val hx => exact h.vals _ hx

theorem legal_enum (hw : W.Makes) {e : Nat} {n : String} {x : Val} (h : (n, x) ∈ (W.enm e).members) : Legal W (.enumv e n) := by
  obtain ⟨y, hy⟩ := Option.isSome_iff_exists.1 ((aget_isSome_iff _ _).2 (List.mem_map.2 ⟨_, h, rfl⟩))
  refine .of_parts ⟨y, hy⟩ (fun z hz => ?_)
  cases hz with | member hz => exact hw.members e n z (aget_mem hz)

theorem legal_enumCall (hw : W.Makes) {e : Nat} {v m : Val} (h : enumCall W e v = some m) : Legal W m := by
  obtain ⟨p, hp, rfl⟩ := enumCall_member h
  exact legal_enum hw hp

theorem legal_typed {k : DtKind} {r : Val} (h : HasType W NoUser (fun _ _ => False) (.dt k) r) : Legal W r := by
  cases h with
  | user h => cases h
  | date h => exact .of_parts ((validDate_iff _ _ _).2 h) (fun x hx => by cases hx)
  | time h => exact .of_parts ((validTime_iff _ _ _ _).2 h) (fun x hx => by cases hx)
  | datetime h h' => exact .of_parts ⟨(validDate_iff _ _ _).2 h, (validTime_iff _ _ _ _).2 h'⟩ (fun x hx => by cases hx)

theorem legal_timedelta {us : Int} (h : validTimedelta us = true) : Legal W (.timedelta us) := .of_parts h (fun x hx => by cases hx)

theorem legal_pyCall (hw : W.Makes) {t : Ty} {v r : Val} (hv : Legal W v) (h : pyCall W t v = .ok r) : Legal W r := by
  unfold pyCall at h
  split at h
  · cases h; exact hv
  · split at h
    · rename_i hm; cases h; exact legal_enumCall hw hm
    · cases h
  · unfold tdDays at h
    split at h
    · split at h
      · rename_i hv; cases h; exact legal_timedelta hv
      · cases h
    · exact hw.call _ _ _ hv h
  · exact hw.call _ _ _ hv h

theorem legal_leaf (hw : W.Makes) {h : Handler} {v : Val} {t : Ty} {r : Val} (hleaf : h.isLeaf = true) (hv : Legal W v)
    (ho : ∀ rec : Rec, step W C rec h v t = M.lift (.ok r)) : Legal W r := by
  have hs := leaf_ok ho
  cases h <;> first | (cases hleaf; done) | skip
  · simp only [step, noneload] at hs
    split at hs
    · cases hs; exact legal_prim (p := .none) rfl
    · cases hs
  · simp only [step, basicload] at hs
    split at hs
    · split at hs
      · cases hc : pyCall W t v with
        | ok x => rw [hc] at hs; cases hs; exact legal_pyCall hw hv hc
        | error e => rw [hc] at hs; dsimp only at hs; (repeat' split at hs) <;> cases hs
      · cases hs
    · cases hs; exact hv
  · simp only [step, literalload] at hs
    split at hs
    · split at hs <;> cases hs; exact hv
    · cases hs
  · simp only [step, datetimeload] at hs
    split at hs
    · rename_i k
      cases hx : dtParse W k v with
      | ok x => rw [hx] at hs; cases hs; exact legal_typed (dtParse_typed hw.toLawful hx)
      | error e => rw [hx] at hs; dsimp only at hs; (repeat' split at hs) <;> cases hs
    · cases hs
  · simp only [step, patternload] at hs
    cases hx : patCompile W v with
    | ok x =>
      rw [hx] at hs; cases hs
      unfold patCompile at hx
      split at hx
      · cases hx; exact hv
      · rename_i y; cases hr : W.reCompile (.str y) with
        | error e => rw [hr] at hx; cases hx
        | ok u => rw [hr] at hx; cases hx; exact .of_parts (Or.inl rfl) (fun x hx => by cases hx; exact hv)
      · rename_i y; cases hr : W.reCompile (.bytes y) with
        | error e => rw [hr] at hx; cases hx
        | ok u => rw [hr] at hx; cases hx; exact .of_parts (Or.inr rfl) (fun x hx => by cases hx; exact hv)
      · cases hx
    | error e => rw [hx] at hs; dsimp only at hs; (repeat' split at hs) <;> cases hs
  · simp only [step, timedeltaload] at hs
    cases hx : tdSeconds W v with
    | ok x =>
      rw [hx] at hs; cases hs
      have := tdSeconds_typed (U := NoUser) (F := fun _ _ => False) hw.toLawful hx
      cases this with
      | user h => cases h
      | timedelta h => exact legal_timedelta h
    | error e => rw [hx] at hs; dsimp only at hs; (repeat' split at hs) <;> cases hs
  · simp only [step, strconstructload] at hs
    cases hx : pyCall W t v with
    | ok x => rw [hx] at hs; cases hs; exact legal_pyCall hw hv hx
    | error e => rw [hx] at hs; dsimp only at hs; (repeat' split at hs) <;> cases hs
  · cases hs; exact hv

section
variable {P : Handler → Val → Ty → Except Exc Val → Prop} (hP : ∀ h v t r, P h v t (.ok r) → Legal W v → Legal W r)
include hP

theorem LoadSem.legal {x : Val} {t : Ty} {a : Option Annotation} {r : Val} (h : LoadSem W C P x t a (.ok r)) (hx : Legal W x) : Legal W r := by
  cases h with
  | ok hp h => exact hP _ _ _ _ h hx

theorem IterSem.legal {h : Handler} {k : SeqKind} {et : Ty} {v : Val} {t : Ty} {xs : List Val} {i : Nat} {acc : List Val}
    {o : Except Exc (List Val)} (hs : IterSem W C P h k et v t xs i acc o) (hxs : ∀ x ∈ xs, Legal W x)
    (ha : (∀ x ∈ acc, Legal W x) ∧ (k.isSet = true → SetLike W acc)) (ys : List Val) (ho : o = .ok ys) :
    (∀ x ∈ ys, Legal W x) ∧ (k.isSet = true → SetLike W ys) := by
  induction hs with
  | nil => cases ho; exact ha
  | stop => cases ho; exact ha
  | unhashable => cases ho
  | elem => cases ho
  | cons h1 h2 _ ih =>
    rename_i x xs i acc y acc' o _
    refine ih (fun z hz => hxs z (by simp [hz])) ?_ ho
    have hy : Legal W y := by
      cases h1 with
      | pass h => exact hxs _ (by simp)
      | call _ h => exact hP _ _ _ _ h (hxs _ (by simp))
    unfold collAdd at h2
    split at h2
    · rename_i hset
      split at h2
      · rename_i hh
        cases h2
        refine ⟨?_, fun _ => setLike_setAdd (ha.2 hset) hh⟩
        intro z hz
        unfold setAdd at hz
        split at hz
        · exact ha.1 z hz
        · rcases List.mem_append.1 hz with hz | hz
          · exact ha.1 z hz
          · simp at hz; subst hz; exact hy
      · cases h2
    · rename_i hset
      cases h2
      refine ⟨?_, fun h => absurd h hset⟩
      intro z hz
      rcases List.mem_append.1 hz with hz | hz
      · exact ha.1 z hz
      · simp at hz; subst hz; exact hy

theorem TupSem.legal {v : Val} {t : Ty} {xs : List Val} {ts : List Ty} {i : Nat} {o : Except Exc (List Val)} (hs : TupSem W C P v t xs ts i o)
    (hxs : ∀ x ∈ xs, Legal W x) (ys : List Val) (ho : o = .ok ys) : ∀ y ∈ ys, Legal W y := by
  induction hs generalizing ys with
  | nil_left => cases ho; simp
  | nil_right => cases ho; simp
  | later => cases ho
  | elem => cases ho
  | ok h1 _ ih =>
    cases ho
    intro z hz
    rcases List.mem_cons.1 hz with rfl | hz
    · cases h1 with
      | pass => exact hxs _ (by simp)
      | call _ _ h => exact hP _ _ _ _ h (hxs _ (by simp))
    · exact ih (fun x hx => hxs x (by simp [hx])) _ rfl z hz

theorem FastPart.legal {h : Option Handler} {t : Ty} {x y : Val} (hp : FastPart C P h t x y) (hx : Legal W x) : Legal W y := by
  cases hp with
  | pass => exact hx
  | call _ _ h => exact hP _ _ _ _ h hx

theorem FastSem.legal {kt vt : Ty} {keyF : Handler} {valF : Option Handler} {kvs acc res : List (Val × Val)} (h : FastSem W C P kt vt keyF valF kvs acc res)
    (hk : ∀ p ∈ kvs, Legal W p.1 ∧ Legal W p.2) (ha : DictAcc W (Legal W) (Legal W) acc) : DictAcc W (Legal W) (Legal W) res := by
  induction h with
  | nil => exact ha
  | cons h1 h2 hh _ ih =>
    exact ih (fun p hp => hk p (by simp [hp])) (ha.add (h1.legal hP (hk _ (List.mem_cons_self ..)).1) (h2.legal hP (hk _ (List.mem_cons_self ..)).2) hh)

theorem SlowSem.legal {kt vt : Ty} {kvs acc : List (Val × Val)} {o : Except Exc (List (Val × Val))} (h : SlowSem W C P kt vt kvs acc o)
    (hk : ∀ p ∈ kvs, Legal W p.1 ∧ Legal W p.2) (ha : DictAcc W (Legal W) (Legal W) acc) (res : List (Val × Val)) (ho : o = .ok res) :
    DictAcc W (Legal W) (Legal W) res := by
  induction h with
  | nil => cases ho; exact ha
  | cons h1 h2 hh _ ih =>
    exact ih (fun p hp => hk p (by simp [hp])) (ha.add (h1.legal hP (hk _ (List.mem_cons_self ..)).1) (h2.legal hP (hk _ (List.mem_cons_self ..)).2) hh) ho
  | key => cases ho
  | value => cases ho
  | unhashable => cases ho

theorem FieldsSem.legal {info : ObjInfo} {v : Val} {t : Ty} {kvs : List (Val × Val)} {acc : List (String × Val)}
    {o : Except Exc (List (String × Val))} (hs : FieldsSem W C P info v t kvs acc o) (hk : ∀ p ∈ kvs, Legal W p.2)
    (ha : ∀ p ∈ acc, Legal W p.2) (hn : (acc.map (·.1)).Nodup) (res : List (String × Val)) (ho : o = .ok res) :
    (∀ p ∈ res, Legal W p.2) ∧ (res.map (·.1)).Nodup := by
  induction hs generalizing res with
  | nil => cases ho; exact ⟨ha, hn⟩
  | other _ _ ih => exact ih (fun p hp => hk p (by simp [hp])) ha hn res ho
  | field hm hh hp hP' _ ih =>
    refine ih (fun p hp => hk p (by simp [hp])) ?_ (map_fst_aset_nodup hn _ _) res ho
    intro p hp'
    rcases mem_aset hp' with h | h
    · rw [h]; exact hP _ _ _ _ hP' (hk _ (List.mem_cons_self ..))
    · exact ha p h
  | fieldErr => cases ho
  | noHandler => cases ho

theorem ScriptSem.legal {p : Script} {r : Val} (h : ScriptSem W C P p (.ok r)) (hp : p.Makes W) : Legal W r := by
  generalize ho : (Except.ok r : Except Exc Val) = o at h
  induction h with
  | ret => cases ho; exact hp
  | raise => cases ho
  | call hl _ ih =>
    rename_i o o' _
    obtain ⟨h1, h2, h3⟩ := hp
    cases o with
    | ok y => exact ih (h2 y (hl.legal hP h1)) ho
    | error e => exact ih (h3 e) ho
end

theorem fillFields_names {params : List (String × Val)} : ∀ {fs : List Field} {r : List (String × Val)},
    (∀ f ∈ fs, f.init = false → f.default = none → aget params f.name = none) → fillFields params fs = .ok r →
    r.map (·.1) = (fs.filter (fun f => f.init || f.default.isSome)).map (·.name)
  | [], r, _, h => by cases h; rfl
  | f :: fs, r, hp, h => by
    simp only [fillFields] at h
    cases hf : fillField params f with
    | error e => rw [hf] at h; cases h
    | ok l =>
      rw [hf] at h; dsimp only at h
      cases hr : fillFields params fs with
      | error e => rw [hr] at h; cases h
      | ok r' =>
        rw [hr] at h; cases h
        have ih := fillFields_names (fun f hf => hp f (by simp [hf])) hr
        rw [List.map_append, ih]
        unfold fillField at hf
        cases ha : aget params f.name with
        | some x =>
          rw [ha] at hf; cases hf
          have : (f.init || f.default.isSome) = true := by
            cases h1 : f.init with
            | true => rfl
            | false => cases h2 : f.default with
              | some d => rfl
              | none => rw [hp f (by simp) h1 h2] at ha; cases ha
          simp [this]
        | none =>
          rw [ha] at hf; dsimp only at hf
          cases h2 : f.default with
          | some d =>
            rw [h2] at hf; cases hf
            rw [List.filter_cons_of_pos (by simp [h2])]; rfl
          | none =>
            rw [h2] at hf; dsimp only at hf
            split at hf
            · cases hf
            · rename_i hi; cases hf
              rw [List.filter_cons_of_neg (by simp [h2, hi])]; rfl

theorem fillFields_legal (hw : W.Makes) {c : Nat} {params : List (String × Val)} (hp : ∀ p ∈ params, Legal W p.2) {r : List (String × Val)}
    (h : fillFields params (W.cls c).fields = .ok r) : ∀ p ∈ r, Legal W p.2 := by
  obtain ⟨ls, hz, rfl⟩ := fillFields_zip (P := fun f l => ∀ p ∈ l, Legal W p.2) (by
    intro f hf l hl
    unfold fillField at hl
    cases ha : aget params f.name with
    | some x => rw [ha] at hl; cases hl; simpa using hp _ (aget_mem ha)
    | none =>
      rw [ha] at hl; dsimp only at hl
      cases h2 : f.default with
      | some d => rw [h2] at hl; cases hl; simpa using hw.defaults c f hf d h2
      | none => rw [h2] at hl; dsimp only at hl; split at hl <;> cases hl; simp) h
  intro p hp'
  obtain ⟨l, hl, hpl⟩ := List.mem_flatten.1 hp'
  obtain ⟨f, _, hfl⟩ := hz.mem_right hl
  exact hfl p hpl

theorem legal_instance (hw : W.Makes) {c : Nat} (hk : (W.cls c).kind = .dataclass ∨ (W.cls c).kind = .attrs) {params : List (String × Val)}
    (hp : ∀ p ∈ params, Legal W p.2) {r : Val}
    (h : (if params.all (fun p => isInitArg (W.cls c) p.1) then
      match fillFields params (W.cls c).fields with
      | .error e => .error e
      | .ok fs => (W.initHook c fs).map (.inst c)
    else .error .type) = Except.ok r) : Legal W r := by
  split at h
  · rename_i hall
    cases hf : fillFields params (W.cls c).fields with
    | error e => rw [hf] at h; cases h
    | ok fs =>
      rw [hf] at h; dsimp only at h
      cases hi : W.initHook c fs with
      | error e => rw [hi] at h; cases h
      | ok fs' =>
        rw [hi] at h; cases h
        have h1 := fillFields_names (params := params) (fun f hf' hi' _ => by
          cases ha : aget params f.name with
          | none => rfl
          | some x =>
            have := List.all_eq_true.1 hall _ (aget_mem ha)
            simp only [isInitArg, List.any_eq_true, Bool.and_eq_true, beq_iff_eq] at this
            obtain ⟨g, hg, ⟨h2, h3⟩, _⟩ := this
            rw [nodup_map_inj (hw.names c) hg hf' h2] at h3
            rw [hi'] at h3; cases h3) hf
        obtain ⟨h2, h3⟩ := hw.init c fs fs' hi (fillFields_legal hw hp hf) h1
        refine .of_parts ⟨hk, h2, h2 ▸ hw.names c⟩ (fun x hx => ?_)
        cases hx with | attr hx => exact h3 _ hx
  · cases h

theorem legal_construct (hw : W.Makes) {c : Nat} {params : List (String × Val)} (hp : ∀ p ∈ params, Legal W p.2) (hn : (params.map (·.1)).Nodup) {r : Val}
    (h : construct W c params = .ok r) : Legal W r := by
  unfold construct at h
  dsimp only at h
  split at h
  · cases h
    refine legal_dict ⟨?_, ?_, ?_⟩
    · intro p hp'; obtain ⟨q, _, rfl⟩ := List.mem_map.1 hp'; exact legal_str _
    · intro p hp'; obtain ⟨q, hq, rfl⟩ := List.mem_map.1 hp'; exact hp q hq
    · rw [List.map_map]
      constructor
      · intro x hx; obtain ⟨q, _, rfl⟩ := List.mem_map.1 hx; rfl
      · have hn : (params.map (·.1)).Pairwise (· ≠ ·) := hn
        rw [List.pairwise_map] at hn ⊢
        refine hn.imp (fun {a b} hab => ?_)
        simpa [pyEq] using hab
  · rename_i hk
    cases hf : fillFields params (W.cls c).fields with
    | error e => rw [hf] at h; cases h
    | ok fs =>
      rw [hf] at h; cases h
      have h1 := fillFields_names (fun f hf' hi => absurd (hw.tuples c hk f hf') (by simp [hi])) hf
      rw [List.filter_eq_self.2 (fun f hf' => by simp [hw.tuples c hk f hf'])] at h1
      refine .of_parts ⟨hk, h1, h1 ▸ hw.names c⟩ (fun x hx => ?_)
      cases hx with | item hx => exact fillFields_legal hw hp hf _ hx
  · rename_i hk; exact legal_instance hw (Or.inl hk) hp h
  · rename_i hk; exact legal_instance hw (Or.inr hk) hp h

/-- One step of the loader makes only values that can exist. -/
theorem legal_step (hw : W.Makes) {F : Names} (hu : ∀ i x u, Installed C (.custom i) → Legal W x → (W.customLoad i x u).Makes W) (h : Handler) (v : Val) (t : Ty)
    (o : Except Exc Val) (hs : StepSem W C F (fun _ v _ o => Legal W v → ∀ r, o = .ok r → Legal W r) h v t o) (hv : Legal W v) (r : Val) (ho : o = .ok r) :
    Legal W r := by
  have hP : ∀ (_ : Handler) (v : Val) (_ : Ty) (r : Val), (Legal W v → ∀ r', Except.ok r = (.ok r' : Except Exc Val) → Legal W r') → Legal W v → Legal W r :=
    fun _ _ _ r h hv => h hv r rfl
  cases hs with
  | leaf hleaf h => subst ho; exact legal_leaf hw hleaf hv h
  | custom hi hsc => subst ho; exact hsc.legal (C := C) hP (hu _ _ _ hi hv)
  | iter hk hnd hx hp' hit =>
    cases ho
    have := hit.legal hP (fun x hx' => legal_pyIter hv hx hx') ⟨by simp, fun _ => by simp [SetLike]⟩ _ rfl
    exact legal_seq this.1 this.2
  | tup hnd hx hlen _ htup =>
    cases ho
    exact legal_seq (htup.legal hP (fun x hx' => legal_pyIter hv hx hx') _ rfl) (fun h => by cases h)
  | dictFast hdata _ _ _ hf => cases ho; exact legal_dict (hf.legal hP (fun p hp => legal_dictData hv hdata hp) DictAcc.nil)
  | dictSlow hdata _ _ hf => cases ho; exact legal_dict (hf.legal hP (fun p hp => legal_dictData hv hdata hp) DictAcc.nil _ rfl)
  | obj hob =>
    subst ho
    cases hob with
    | ok hi hm hnec _ hfs hcon =>
      obtain ⟨h1, h2⟩ := hfs.legal hP (fun p hp => legal_mangled hv hm hp) (by simp) (by simp) _ rfl
      exact legal_construct hw h1 h2 hcon
  | unionBasic hb => cases ho; exact hv
  | unionOne hne hord htry =>
    cases ho
    obtain ⟨u, hu, hcall⟩ := (htry.winner _ _ _ rfl).resolve_left (fun h => by cases h.1)
    cases hcall with
    | call hp' hP' => exact hP' hv _ rfl
  | enumMember hm => cases ho; exact legal_enumCall hw hm
  | enumHints hn hh =>
    obtain ⟨x, hx⟩ := hh.member r ho
    exact legal_enumCall hw hx
  | fref hf _ hl' => subst ho; exact hl'.legal hP hv
  | newtype hl' => subst ho; exact hl'.legal hP hv
  | _ => cases ho

/-- **C76** What `load` returns can exist in Python, for every type, data, list of handlers, options and history of the loader: no half-built objects (an
instance has all the fields of its class, in order), no sets or dictionaries with repeated or unhashable elements, no dates out of range, at any depth; the
handler mix-up of `_dictload` included.  The user's handlers must do the same. -/
theorem C76_wellformed (hw : W.Makes) (hu : ∀ i x u, Installed C (.custom i) → Legal W x → (W.customLoad i x u).Makes W) {s s' : LState}
    (hs : Reachable W C s) {v : Val} {t : Ty} {r : Val} (hv : Legal W v) (h : Loads W C s v t r s') : Legal W r := by
  obtain ⟨hh, hp, hP⟩ := h.sem (Meets.closed s t) (fun h v t o hg hs => legal_step hw hu h v t o hs) (hs.good_meets t) .self
  exact hP hv r rfl

/-- **C76** The same when threads share the loader, under every interleaving. -/
theorem C76_threads (hw : W.Makes) (hu : ∀ i x u, Installed C (.custom i) → Legal W x → (W.customLoad i x u).Makes W) {s : LState}
    (hs : Reachable W C s) {jobs : List Job} {c : Conf} (hc : (Conf.start W C s jobs).Steps c) {i : Nat} {j : Job} (hj : jobs[i]? = some j)
    (hv : Legal W j.value) {r : Val} (hr : c.threads[i]? = some (.ret r)) : Legal W r := by
  obtain ⟨hh, hp, hP⟩ := (Conf.Steps.sem hs (fun h v t o hg hs => legal_step hw hu h v t o hs) hc hj).1 r hr
  exact hP hv r rfl

/-- **C76** With the default handlers, what was loaded can be given to any dumper: it returns what the loaded value is dumped as (C75), or raises when that is
nothing; it never runs forever. -/
theorem C76_load_dump (hd : C.Default) (hw : W.Makes) (hg : W.GroundedEnums) {s s' : LState} (hs : Reachable W C s) {v : Val} {t : Ty} {r : Val} (hv : Legal W v)
    (h : Loads W C s v t r s') {D : DConfig} (hdd : D.Default) {sd : DState} (hsd : DReachable W D sd) (a : Ty) :
    (∃ d sd', Dumps W D sd r a d sd' ∧ Dumped W D r a d) ∨ ((∃ e sd', DumpRaises W D sd r a e sd') ∧ ∀ d, ¬ Dumped W D r a d) := by
  have hr := C76_wellformed hw (fun i _ _ hi _ => absurd hi (not_installed hd i)) hs hv h
  rcases C51_ends hdd hg hsd hr a with ⟨d, sd', h'⟩ | h'
  · exact Or.inl ⟨d, sd', h', (C75_exact hdd hw.defaults hsd hr).1 ⟨sd', h'⟩⟩
  · exact Or.inr ⟨h', (C75_refused hdd hw.defaults hg hsd hr).1 h'⟩

theorem Sample.makes : Sample.W.Makes where
  toLawful := Sample.lawful
  defaults := Sample.legalDefaults
  members e n x h := by
    match e with
    | 0 =>
      simp [Sample.W, Sample.enm] at h
      rcases h with ⟨_, rfl⟩ | ⟨_, rfl⟩
      · exact legal_int _
      · exact legal_str _
    | 1 =>
      simp [Sample.W, Sample.enm] at h
      obtain ⟨_, rfl⟩ := h
      refine legal_seq (fun x hx => ?_) (fun h => by cases h)
      simp at hx
      rcases hx with rfl | rfl <;> exact legal_int _
    | e + 2 => cases h
  names c := by
    match c with
    | 0 | 1 | 2 | 3 | 4 | 5 | 6 | 7 | 8 => decide
    | n + 9 => exact List.Pairwise.nil
  tuples c hk f hf := by
    match c with
    | 1 => revert f; decide
    | 0 | 2 | 3 | 4 | 5 | 6 | 7 | 8 => cases hk
    | n + 9 => cases hk
  call t v r _ h := by
    have hc : Sample.call t v = .ok r := h
    unfold Sample.call at hc
    split at hc <;> cases hc
    · exact legal_int _
    · exact legal_int _
    · exact legal_str _
    · exact legal_str _
    · exact legal_prim (p := .bool) rfl
    · exact .of_parts trivial (fun x hx => by cases hx)
  init c fs fs' h hl hn := by
    cases h
    refine ⟨?_, hl⟩
    rw [hn]
    match c with
    | 0 | 1 | 2 | 3 | 4 | 5 | 6 | 7 | 8 => rfl
    | n + 9 => rfl

-- loading `{'x': '5', 'zed': 'q'}` into the dataclass P meets the hypotheses
example : ∃ r s', Sample.W.Makes ∧ Reachable Sample.W Sample.C (fresh []) ∧ Loads Sample.W Sample.C (fresh []) (.dict [(.str "x", .str "5"), (.str "zed", .str "q")]) (.obj 0) r s' ∧
    r = .inst 0 [("x", .int 5), ("z", .str "q"), ("y", .int 5)] ∧ Legal Sample.W r := by
  have h : Loads Sample.W Sample.C (fresh []) (.dict [(.str "x", .str "5"), (.str "zed", .str "q")]) (.obj 0) _ _ := ⟨5, rfl⟩
  refine ⟨_, _, Sample.makes, .new _ _, h, rfl, C76_wellformed Sample.makes (fun i _ _ hi _ => absurd hi (not_installed (C := Sample.C) rfl i)) (.new _ _) ?_ h⟩
  refine legal_dict ⟨?_, ?_, ?_, ?_⟩
  · intro p hp; simp at hp; rcases hp with rfl | rfl <;> exact legal_str _
  · intro p hp; simp at hp; rcases hp with rfl | rfl <;> exact legal_str _
  · decide
  · decide

theorem Sample.insideB {v x : Val} (h : Inside Sample.WB v x) : Inside Sample.W v x := by
  induction h with
  | self => exact .self
  | elem _ h ih => exact .elem ih h
  | key _ h ih => exact .key ih h
  | val _ h ih => exact .val ih h
  | arg _ h ih => exact .arg ih h
  | item _ h ih => exact .item ih h
  | attr _ h ih => exact .attr ih h
  | member _ h ih => exact .member ih h
  | source _ ih => exact .source ih

theorem Sample.insideW {v x : Val} (h : Inside Sample.W v x) : Inside Sample.WB v x := by
  induction h with
  | self => exact .self
  | elem _ h ih => exact .elem ih h
  | key _ h ih => exact .key ih h
  | val _ h ih => exact .val ih h
  | arg _ h ih => exact .arg ih h
  | item _ h ih => exact .item ih h
  | attr _ h ih => exact .attr ih h
  | member _ h ih => exact .member ih h
  | source _ ih => exact .source ih

theorem Sample.legalB {v : Val} : Legal Sample.WB v ↔ Legal Sample.W v :=
  ⟨fun h x hx => h x (Sample.insideW hx), fun h x hx => h x (Sample.insideB hx)⟩

theorem Sample.makesB : Sample.WB.Makes where
  toLawful := Sample.lawfulB
  defaults c f hf d hd := Sample.legalB.2 (Sample.legalDefaults c f hf d hd)
  members e n x h := Sample.legalB.2 (Sample.makes.members e n x h)
  names := Sample.makes.names
  tuples := Sample.makes.tuples
  call t v r hv h := Sample.legalB.2 (Sample.makes.call t v r (Sample.legalB.1 hv) h)
  init c fs fs' h hl hn := by
    obtain ⟨h1, h2⟩ := Sample.makes.init c fs fs' h (fun p hp => Sample.legalB.1 (hl p hp)) hn
    exact ⟨h1, fun p hp => Sample.legalB.2 (h2 p hp)⟩

-- the user's handler of `CB` keeps the promise
theorem Sample.makesB_user : ∀ i x u, Legal Sample.WB x → (Sample.WB.customLoad i x u).Makes Sample.WB := by
  intro i x u hx
  show (Sample.callback x u).Makes Sample.WB
  unfold Sample.callback
  split
  · exact ⟨hx, fun y hy => hy, fun e => trivial⟩
  · split
    · split
      · refine ⟨hx.inside (.elem .self (List.mem_cons_self ..)), fun y hy => ?_, fun e => trivial⟩
        exact legal_seq (by simpa using hy) (fun h => by cases h)
      · exact legal_int _
    · exact hx

end TL
