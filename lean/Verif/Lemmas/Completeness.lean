import Verif.Spec.Completeness
import Verif.Lemmas.Conversion
import Verif.Lemmas.SemMono
import Verif.Lemmas.SemErr
import Verif.Lemmas.Evolve
/-!
# Lemmas for C74: what a step of the loader refuses has no conversion
-/

namespace TL

variable {W : World} {C : Config} {F : String → Ty → Prop}

/-! ## Leaves -/

theorem Converts.pick {v : Val} {t : Ty} {r : Val} (hd : C.Usual W t) (h : Converts W C F v t r) : ∃ h, TL.pick W C t = .ok h := by
  cases h with
  | @exact p _ hb _ =>
    by_cases hn : p = .none
    · subst hn; exact ⟨_, hd.none⟩
    · exact ⟨_, hd.basic (hb.resolve_right hn) hn⟩
  | cast _ hb hn => exact ⟨_, hd.basic hb hn⟩
  | any => exact ⟨_, hd.any⟩
  | lit => exact ⟨_, hd.lit⟩
  | enum => exact ⟨_, hd.enum⟩
  | hint => exact ⟨_, hd.enum⟩
  | dt => exact ⟨_, hd.dt⟩
  | timedelta => exact ⟨_, hd.timedelta⟩
  | pattern => exact ⟨_, hd.pattern⟩
  | strcons hc => exact ⟨_, hd.strcons hc⟩
  | coll => exact ⟨_, hd.coll⟩
  | set => exact ⟨_, hd.coll⟩
  | tuple => exact ⟨_, hd.tuple⟩
  | dict => exact ⟨_, hd.dict⟩
  | union => exact ⟨_, hd.union⟩
  | fref => exact ⟨_, hd.fref⟩
  | newtype => exact ⟨_, hd.newtype⟩
  | typeddict => exact ⟨_, hd.obj⟩
  | obj => exact ⟨_, hd.obj⟩

theorem no_handler {v : Val} {t : Ty} {r : Val} {c : ExcClass} (hd : C.Usual W t) (hp : pick W C t = .error c) : ¬ Converts W C F v t r := by
  intro h
  obtain ⟨h', hp'⟩ := h.pick hd
  rw [hp] at hp'; cases hp'

theorem leaf_not_loads {h : Handler} {v : Val} {t : Ty} {e : Exc} (hp : pick W C t = .ok h) (ho : ∀ rec : Rec, step W C rec h v t = M.lift (.error e))
    (r : Val) : ¬ ∃ s', Loads W C (fresh []) v t r s' := by
  rintro ⟨s', hl⟩
  obtain ⟨n, h', hp', hr⟩ := (loads_iff (Reachable.new _ _).coh).1 hl
  rw [hp] at hp'; cases hp'
  cases n with
  | zero => cases hr
  | succ n =>
    have : step W C (run W C n) h v t (cacheReg W t h (fresh [])) = .ok r s' := hr
    rw [ho] at this; cases this

theorem leaf_refuses {h : Handler} {v : Val} {t : Ty} {e : Exc} (hd : C.Usual W t) (hpk : pick W C t = .ok h)
    (hleaf : h.isLeaf = true) (ho : ∀ rec : Rec, step W C rec h v t = M.lift (.error e)) (r : Val) : ¬ Converts W C F v t r := by
  have hs := leaf_err ho
  have hl := leaf_not_loads hpk ho
  intro hc
  cases picked_of_stock (hd.symm.trans hpk) with
  | none =>
    cases hc with
    | exact _ ht =>
      have : v = .none := by cases v <;> simp [typeOf] at ht; rfl
      subst this
      simp only [step, noneload] at hs
      cases hs
    | cast _ _ hn => exact hn rfl
  | basic hb hn =>
    rename_i p
    simp only [step, basicload] at hs
    cases hc with
    | exact _ ht => rw [if_neg (by simp [ht])] at hs; cases hs
    | cast hbc _ _ ht hcall =>
      rw [if_pos (by simpa using ht), if_pos hbc] at hs
      have : pyCall W (.prim p) v = .ok r := hcall
      rw [this] at hs; cases hs
  | lit =>
    cases hc with
    | lit h1 h2 => exact hl v ((C26_literal hd (.new _ _) v v).2 ⟨rfl, _, h1, h2⟩)
  | dt =>
    cases hc with
    | dt h =>
      rcases h with ⟨x, rfl, h⟩ | ⟨hv, xs, is, n, h1, h2, h3⟩
      · exact hl r ((loads_dt hd (.new _ _) _ _).2 h)
      · rename_i k
        cases k with
        | date =>
          obtain ⟨_, y, m, d, rfl, h4, h5⟩ := h3
          exact hl r ((C33_date hd (.new _ _) v r hv).2 ⟨xs, y, m, d, h1, h2, h4, h5⟩)
        | time =>
          obtain ⟨hh, mi, sec, us, h4, h5, h6⟩ := h3
          exact hl r ((C33_time hd (.new _ _) v r hv).2 ⟨xs, is, hh, mi, sec, us, n, h1, h2, h4, h5, h6⟩)
        | datetime =>
          obtain ⟨y, m, d, hh, mi, sec, us, h3, h4, h5, h6, h7⟩ := h3
          exact hl r ((C33_datetime hd (.new _ _) v r hv).2 ⟨xs, is, y, m, d, hh, mi, sec, us, n, h1, h2, h3, h4, h5, h6, h7⟩)
  | pattern =>
    cases hc with
    | pattern h => exact hl r ((C35_pattern_partial hd (.new _ _) v r).2 h)
  | timedelta =>
    cases hc with
    | timedelta h =>
      have : tdSeconds W v = .ok r := by
        rcases h with ⟨n, rfl, h1, h2, rfl⟩ | ⟨b, rfl, rfl⟩ | ⟨f, us, rfl, h1, rfl⟩
        · unfold tdSeconds
          dsimp only
          rw [if_pos]
          unfold validTimedelta; simp only [Bool.and_eq_true, decide_eq_true_eq]; omega
        · rfl
        · unfold tdSeconds; dsimp only; rw [h1]; rfl
      simp only [step, timedeltaload] at hs
      rw [this] at hs; cases hs
  | strcons hc' =>
    cases hc with
    | strcons _ h => exact hl r ((C36_loads hd (.new _ _) hc' v r).2 h)
  | any => simp only [step, anyload] at hs; cases hs
  | coll => rename_i k t; cases k <;> cases hleaf
  | obj => rename_i c; revert hleaf; cases (W.cls c).kind <;> intro hleaf <;> cases hleaf
  | bare hb => rcases hb with rfl | rfl | rfl | rfl | rfl <;> cases hleaf
  | _ => cases hleaf

/-! ## Loops -/

section
variable {P : Handler → Val → Ty → Except Exc Val → Prop}

theorem IterSem.why {h : Handler} {k : SeqKind} {et : Ty} {v : Val} {t : Ty} {xs : List Val} {i : Nat} {acc : List Val}
    {o : Except Exc (List Val)} (hi : IterSem W C P h k et v t xs i acc o) {e : Exc} (ho : o = .error e) :
    ∃ x ∈ xs, (∃ e', ElemSem C P h et x (.error e')) ∨ k.isSet = true ∧ ∃ y, ElemSem C P h et x (.ok y) ∧ W.hash y = false := by
  induction hi with
  | nil => cases ho
  | cons _ _ _ ih => obtain ⟨x, hx, h⟩ := ih ho; exact ⟨x, by simp [hx], h⟩
  | unhashable h1 h2 =>
    refine ⟨_, List.mem_cons_self .., Or.inr ?_⟩
    unfold collAdd at h2
    split at h2
    · rename_i hk
      split at h2
      · cases h2
      · rename_i hh; exact ⟨hk, _, h1, by simpa using hh⟩
    · cases h2
  | stop => cases ho
  | elem h _ => exact ⟨_, List.mem_cons_self .., Or.inl ⟨_, h⟩⟩

theorem TrySem.failed {v : Val} {t : Ty} {us : List Ty} {c : Nat} {r : Val} {es : List Exc} {o : Except Exc (Nat × Val × List Exc)}
    (hs : TrySem W C P v t us c r es o) {c' : Nat} {r' : Val} {es' : List Exc} (ho : o = .ok (c', r', es')) : c ≤ c' ∧
    (C.uniondebugconflict = false → c' ≤ c + 1) ∧
    (c' = c → ∀ u ∈ us, ∃ e, CallSem W C P (mkExc .tlValue (.noHandlerIn u t) v u) v u (.error e)) := by
  induction hs with
  | nil => cases ho; exact ⟨Nat.le_refl _, fun _ => by omega, by simp⟩
  | win => cases ho; exact ⟨by omega, fun _ => by omega, fun h => by omega⟩
  | count _ hd _ ih => obtain ⟨h1, h2, h3⟩ := ih ho; exact ⟨by omega, fun h => (by rw [h] at hd; cases hd), fun h => by omega⟩
  | refuse h1 _ _ ih =>
    obtain ⟨h2, h3, h4⟩ := ih ho
    refine ⟨h2, h3, fun h u hu => ?_⟩
    rcases List.mem_cons.1 hu with rfl | hu
    · exact ⟨_, h1⟩
    · exact h4 h u hu
  | crash => cases ho

theorem HintsSem.why {v : Val} {n : Nat} {us : List Ty} {es : List Exc} {o : Except Exc Val} (hs : HintsSem W C P v n us es o)
    {e : Exc} (ho : o = .error e) : ∀ u ∈ us, (∃ x, LoadSem W C P v u (some (.union u)) (.ok x) ∧ enumCall W n x = none) ∨
    ∃ e', LoadSem W C P v u (some (.union u)) (.error e') := by
  induction hs with
  | nil => simp
  | ok => cases ho
  | noMember h1 h2 _ ih =>
    intro u hu
    rcases List.mem_cons.1 hu with rfl | hu
    · exact Or.inl ⟨_, h1, h2⟩
    · exact ih ho u hu
  | err h1 _ ih =>
    intro u hu
    rcases List.mem_cons.1 hu with rfl | hu
    · exact Or.inr ⟨_, h1⟩
    · exact ih ho u hu
end

/-! ## Classes -/

theorem FieldTy.unique {k : ObjKind} {f : Field} {t t' : Ty} (h : FieldTy k f t) (h' : FieldTy k f t') : t = t' := by
  have nc : ∀ {cv : Conv}, k = .attrs → f.conv = some cv → (k = .attrs → f.conv = none) → False := by
    intro cv hk hc h; rw [h hk] at hc; cases hc
  cases h with
  | declared h1 =>
    cases h' with
    | declared => rfl
    | converter cv h2 h3 => exact (nc h2 h3 h1).elim
    | untyped cv h2 h3 => exact (nc h2 h3 h1).elim
    | manyHints cv h2 h3 => exact (nc h2 h3 h1).elim
  | converter cv h2 h3 h4 h5 =>
    cases h' with
    | declared h1 => exact (nc h2 h3 h1).elim
    | converter cv' _ h3' h4' => rw [h3] at h3'; cases h3'; rw [h4] at h4'; cases h4'; rfl
    | untyped cv' _ h3' h4' => rw [h3] at h3'; cases h3'; rw [h4] at h4'; cases h4'
    | manyHints cv' _ h3' h4' => rw [h3] at h3'; cases h3'; omega
  | untyped cv h2 h3 h4 h5 =>
    cases h' with
    | declared h1 => exact (nc h2 h3 h1).elim
    | converter cv' _ h3' h4' => rw [h3] at h3'; cases h3'; rw [h4] at h4'; cases h4'
    | untyped => rfl
    | manyHints => rfl
  | manyHints cv h2 h3 h4 =>
    cases h' with
    | declared h1 => exact (nc h2 h3 h1).elim
    | converter cv' _ h3' h4' => rw [h3] at h3'; cases h3'; omega
    | untyped => rfl
    | manyHints => rfl

/-- Known keys become names of fields. -/
theorem mangleLoop_names {c : Nat} (hw : WFNames C (W.cls c).kind (W.cls c).fields) {foe : Bool} (kvs : List (Val × Val)) :
    ∀ (acc r : List (Val × Val)), (∀ p ∈ kvs, KnownKey W C c p.1) → (∀ p ∈ acc, isFieldKey ((W.cls c).fields.map (·.name)) p.1 = true) →
    mangleLoop (transformsOf (renamed C (W.cls c).kind) (W.cls c).fields []) foe kvs acc = .ok r →
    ∀ p ∈ r, isFieldKey ((W.cls c).fields.map (·.name)) p.1 = true := by
  induction kvs with
  | nil => intro acc r _ ha h; cases h; exact ha
  | cons q kvs ih =>
    obtain ⟨k, x⟩ := q
    intro acc r hk ha h
    obtain ⟨f, hf, he⟩ := hk (k, x) (by simp)
    dsimp only at he
    subst he
    have hset : ∀ n, n = f.name → ∀ p ∈ dset acc (.str n) x, isFieldKey ((W.cls c).fields.map (·.name)) p.1 = true := by
      rintro n rfl p hp
      rcases dset_mem2 hp with h | ⟨_, h⟩
      · exact ha p h
      · have : isFieldKey ((W.cls c).fields.map (·.name)) (.str f.name) = true := isFieldKey_iff.2 ⟨_, List.mem_map.2 ⟨f, hf, rfl⟩, rfl⟩
        rcases h with h | h
        · rw [h]; exact this
        · rw [isFieldKey_pyEq h]; exact this
    have hk' : ∀ p ∈ kvs, KnownKey W C c p.1 := fun p hp => hk p (by simp [hp])
    rw [mangleLoop_str, keyFate_ext hw hf] at h
    cases hr : renamed C (W.cls c).kind f with
    | none =>
      rw [hr] at h
      have : extName C (W.cls c).kind f = f.name := by simp [extName, hr]
      exact ih _ r hk' (hset _ this) h
    | some m =>
      rw [hr] at h
      exact ih _ r hk' (hset _ rfl) h

theorem Mangled.known {c : Nat} {info : ObjInfo} (hi : InfoFor W C c info) (hw : WFNames C (W.cls c).kind (W.cls c).fields) {v : Val}
    {kvs kvs' : List (Val × Val)} (hm : Mangled C info.transforms v kvs kvs') (hk : ∀ p ∈ kvs, KnownKey W C c p.1) :
    ∀ p ∈ kvs', isFieldKey info.fields p.1 = true := by
  rw [hi.fields]
  rcases hm.2 with ⟨h1, rfl⟩ | ⟨_, _, h2⟩
  · intro p hp
    obtain ⟨f, hf, he⟩ := hk p hp
    refine isFieldKey_iff.2 ⟨f.name, List.mem_map.2 ⟨f, hf, rfl⟩, ?_⟩
    rw [he]
    cases hr : renamed C (W.cls c).kind f with
    | none => simp [extName, hr]
    | some m =>
      have := (transforms_aget hw m f.name).2 ⟨f, hf, hr, rfl⟩
      rw [← hi.transforms, h1] at this; cases this
  · rw [hi.transforms] at h2
    exact mangleLoop_names hw kvs [] kvs' hk (by simp) h2

/-- What a conversion of an object says about the data. -/
structure ObjConv (W : World) (C : Config) (F : String → Ty → Prop) (v : Val) (c : Nat) (kvs : List (Val × Val)) : Prop where
  data : DictData C v kvs
  known : C.failonextra = true → ∀ p ∈ kvs, KnownKey W C c p.1
  field : ∀ f ∈ (W.cls c).fields, ∀ x, (.str (extName C (W.cls c).kind f), x) ∈ kvs →
    Argument (W.cls c).kind f ∧ ∃ t y, FieldTy (W.cls c).kind f t ∧ Converts W C F x t y
  required : ∀ f ∈ (W.cls c).fields, Required (W.cls c).kind f → extName C (W.cls c).kind f ∈ strKeys kvs
  absent : (W.cls c).kind ≠ .typeddict → ∀ f ∈ (W.cls c).fields, extName C (W.cls c).kind f ∉ strKeys kvs → f.default = none → f.init = false

theorem Converts.object {c : Nat} (hw : WFNames C (W.cls c).kind (W.cls c).fields) {v : Val} {r : Val} (h : Converts W C F v (.obj c) r) (hk : KeysDistinct C v) :
    ∃ kvs, ObjConv W C F v c kvs ∧ ((W.cls c).kind ≠ .typeddict → ∃ l : List (Field × Option Val), (W.cls c).fields = l.map (·.1) ∧
      (∀ q ∈ l, FieldConv W C F c kvs q.1 q.2) ∧ Built W c (l.filterMap (fun q => q.2.map (fun y => (q.1.name, y)))) r) := by
  cases h with
  | @typeddict _ _ kvs l hkd hdata hkn hl hf hc hreq =>
    have hext : ∀ f : Field, extName C (W.cls c).kind f = f.name := fun f => by rw [hkd]; rfl
    refine ⟨kvs, ⟨hdata, hkn, fun f hf' x hx => ?_, fun f hf' hr => ?_, fun h => absurd hkd h⟩, fun h => absurd hkd h⟩
    · refine ⟨fun h => (by rw [hkd] at h; rcases h with h | h <;> cases h), ?_⟩
      rw [hext] at hx
      have : (Val.str f.name, x) ∈ kvs.filter (fun p => isFieldKey ((W.cls c).fields.map (·.name)) p.1) :=
        List.mem_filter.2 ⟨hx, isFieldKey_iff.2 ⟨_, List.mem_map.2 ⟨f, hf', rfl⟩, rfl⟩⟩
      rw [hl] at this
      obtain ⟨q, hq, he⟩ := List.mem_map.1 this
      simp only [Prod.mk.injEq, Val.str.injEq] at he
      have hqf := nodup_map_inj hw.names (hf q hq) hf' he.1
      refine ⟨q.1.ty, q.2.2, ?_, ?_⟩
      · rw [hqf]; exact .declared (fun h => by rw [hkd] at h; cases h)
      · rw [← he.2]; exact hc q hq
    · rw [hkd] at hr
      rw [hext]
      obtain ⟨q, hq, he⟩ := List.mem_map.1 (hreq f hf' hr.1 hr.2)
      have : (Val.str q.1.name, q.2.1) ∈ l.map (fun q => (Val.str q.1.name, q.2.1)) := List.mem_map.2 ⟨q, hq, rfl⟩
      rw [← hl] at this
      exact mem_strKeys.2 ⟨_, by rw [← he]; exact (List.mem_filter.1 this).1⟩
  | @obj _ _ kvs _ l hkd hdata hkn hl hf hb =>
    have hn := hk v kvs .self hdata
    have hfc : ∀ f ∈ (W.cls c).fields, ∃ o, FieldConv W C F c kvs f o := by
      intro f hf'
      rw [hl] at hf'
      obtain ⟨q, hq, rfl⟩ := List.mem_map.1 hf'
      exact ⟨_, hf q hq⟩
    refine ⟨kvs, ⟨hdata, hkn, fun f hf' x hx => ?_, fun f hf' hr => ?_, fun _ f hf' hne hdf => ?_⟩, fun _ => ⟨l, hl, hf, hb⟩⟩
    · obtain ⟨o, ho⟩ := hfc f hf'
      cases ho with
      | loaded ha hx' ht hc =>
        have h1 := dget_of_mem_str hn hx
        have h2 := dget_of_mem_str hn hx'
        rw [h1] at h2; cases h2
        exact ⟨ha, _, _, ht, hc⟩
      | default hne => exact absurd (mem_strKeys.2 ⟨x, hx⟩) hne
      | unset _ hne => exact absurd (mem_strKeys.2 ⟨x, hx⟩) hne
    · obtain ⟨o, ho⟩ := hfc f hf'
      cases ho with
      | loaded ha hx' => exact mem_strKeys.2 ⟨_, hx'⟩
      | default hne hdf =>
        cases hkind : (W.cls c).kind with
        | typeddict => exact absurd hkind hkd
        | _ => rw [hkind] at hr; simp only [Required] at hr; simp_all
      | unset hnt hne hdf hini =>
        cases hkind : (W.cls c).kind with
        | typeddict => exact absurd hkind hkd
        | namedtuple => exact absurd hkind hnt
        | _ => rw [hkind] at hr; simp only [Required] at hr; simp_all
    · obtain ⟨o, ho⟩ := hfc f hf'
      cases ho with
      | loaded ha hx' => exact absurd (mem_strKeys.2 ⟨_, hx'⟩) hne
      | default hne hdf' => rw [hdf] at hdf'; cases hdf'
      | unset _ _ _ hini => exact hini


/-- The value of a field is determined by the data when conversions to its type are. -/
theorem FieldConv.unique {c : Nat} {v0 v : Val} (hv : Within v0 v) {kvs : List (Val × Val)} (hdata : DictData C v kvs) (hn : (strKeys kvs).Nodup) {f : Field}
    (huniq : ∀ u, FieldTy (W.cls c).kind f u → ∀ x a b, Within v0 x → Converts W C F x u a → Converts W C F x u b → a = b) {o o' : Option Val}
    (h : FieldConv W C F c kvs f o) (h' : FieldConv W C F c kvs f o') : o = o' := by
  cases h with
  | loaded _ hx ht hc =>
    cases h' with
    | loaded _ hx' ht' hc' =>
      have h1 := dget_of_mem_str hn hx
      rw [dget_of_mem_str hn hx'] at h1; cases h1
      have := ht.unique ht'; subst this
      rw [huniq _ ht _ _ _ (hv.trans (hdata.within hx).2) hc hc']
    | default hne => exact absurd (mem_strKeys.2 ⟨_, hx⟩) hne
    | unset _ hne => exact absurd (mem_strKeys.2 ⟨_, hx⟩) hne
  | default hne hdf =>
    cases h' with
    | loaded _ hx' => exact absurd (mem_strKeys.2 ⟨_, hx'⟩) hne
    | default _ hdf' => rw [hdf] at hdf'; exact hdf'
    | unset _ _ hdf' => rw [hdf] at hdf'; cases hdf'
  | unset _ hne hdf =>
    cases h' with
    | loaded _ hx' => exact absurd (mem_strKeys.2 ⟨_, hx'⟩) hne
    | default _ hdf' => rw [hdf] at hdf'; cases hdf'
    | unset => rfl

theorem fields_unique {Q : Field → Option Val → Prop} : ∀ {l l' : List (Field × Option Val)}, l.map (·.1) = l'.map (·.1) →
    (∀ q ∈ l, Q q.1 q.2) → (∀ q ∈ l', Q q.1 q.2) → (∀ f ∈ l.map (·.1), ∀ o o', Q f o → Q f o' → o = o') → l = l'
  | [], [], _, _, _, _ => rfl
  | [], _ :: _, h, _, _, _ => by cases h
  | _ :: _, [], h, _, _, _ => by cases h
  | (f, o) :: l, (f', o') :: l', h, h1, h2, hu => by
    simp only [List.map_cons, List.cons.injEq] at h
    obtain ⟨h3, h4⟩ := h
    subst h3
    have h5 := hu f (by simp) o o' (h1 (f, o) (by simp)) (h2 (f, o') (by simp))
    have := fields_unique h4 (fun q hq => h1 q (by simp [hq])) (fun q hq => h2 q (by simp [hq])) (fun g hg => hu g (by
      rw [List.map_cons]; exact List.mem_cons_of_mem _ hg))
    rw [h5, this]

/-- What a step guarantees about the data it refuses. -/
def RefuseP (W : World) (C : Config) (F FK : String → Ty → Prop) (v0 : Val) (h : Handler) (v : Val) (t : Ty) (o : Except Exc Val) : Prop :=
  ConvP W C F h v t o ∧ CrashInv W C FK h v t o ∧ (pick W C t = .ok h → Within v0 v → ∀ e, o = .error e → ∀ r, ¬ Converts W C F v t r)

theorem argument_init {c : Nat} {f : Field} (hf : f ∈ (W.cls c).fields) (hk : (W.cls c).kind = .dataclass ∨ (W.cls c).kind = .attrs)
    (ha : Argument (W.cls c).kind f) : isInitArg (W.cls c) f.name = true := by
  obtain ⟨h1, h2⟩ := ha hk
  unfold isInitArg
  refine List.any_eq_true.2 ⟨f, hf, ?_⟩
  simp only [beq_self_eq_true, h1, Bool.true_and, Bool.not_eq_true', Bool.and_eq_false_iff, beq_eq_false_iff_ne]
  by_cases hk' : (W.cls c).kind = .attrs
  · exact Or.inr (h2 hk')
  · exact Or.inl hk'

variable {FK : String → Ty → Prop}

theorem obj_refuses (hlaw : W.NotRequiredLaw) {c : Nat} (hfu : ∀ f ∈ (W.cls c).fields, ∀ u, FieldTy (W.cls c).kind f u → C.Usual W u) (hw : WFNames C (W.cls c).kind (W.cls c).fields)
    (hatt : (W.cls c).kind = .attrs → ∀ f ∈ (W.cls c).fields, ∃ t, FieldTy .attrs f t) {v0 v : Val} (hv : Within v0 v) (hk : KeysDistinct C v0)
    (hns : (∃ f ∈ (W.cls c).fields, renamed C (W.cls c).kind f ≠ none) → ∀ fs, ¬ Within v0 (.ns fs))
    (hinit : (∀ fs, ∃ fs', W.initHook c fs = .ok fs') ∨
      ∀ f ∈ (W.cls c).fields, ∀ u, FieldTy (W.cls c).kind f u → ∀ x a b, Within v0 x → Converts W C F x u a → Converts W C F x u b → a = b)
    {e : Exc} (h : ObjSem W C (RefuseP W C F FK v0) v c (.error e)) (r : Val) : ¬ Converts W C F v (.obj c) r := by
  intro hconv
  obtain ⟨kvs, ho, hbuilt⟩ := hconv.object hw (hk.within hv)
  have hn := hk v kvs hv ho.data
  have hren : ∀ {info : ObjInfo}, InfoFor W C c info → info.transforms ≠ [] → ∃ f ∈ (W.cls c).fields, renamed C (W.cls c).kind f ≠ none := by
    intro info hi hne
    apply Classical.byContradiction
    intro hno
    refine hne ?_
    rw [hi.transforms]
    refine transformsOf_none _ _ (fun f hf => ?_)
    cases hr : renamed C (W.cls c).kind f with
    | none => rfl
    | some m => exact absurd ⟨f, hf, by rw [hr]; simp⟩ hno
  have hnec : ∀ {info : ObjInfo} {kvs' : List (Val × Val)}, InfoFor W C c info → Mangled C info.transforms v kvs kvs' → ∀ n ∈ info.necessary, n ∈ strKeys kvs' := by
    intro info kvs' hi hm n hnn
    obtain ⟨f, hf, rfl, hr⟩ := hi.nec_sub n hnn
    have hreq : Required (W.cls c).kind f := by
      rcases hr with hr | ⟨hkd, hr⟩
      · exact hr
      · rw [hkd]
        refine ⟨hr, ?_⟩
        cases h2 : f.notRequired with
        | false => rfl
        | true => have := hlaw c f hf h2; rw [hr] at this; cases this
    have h1 := ho.required f hf hreq
    have hdg := hm.dget hi hw hn hf
    apply Classical.byContradiction
    intro h2
    rw [← dget_none_str, hdg, dget_none_str] at h2
    exact h2 h1
  have hback : ∀ {info : ObjInfo} {kvs' : List (Val × Val)}, InfoFor W C c info → Mangled C info.transforms v kvs kvs' → ∀ f ∈ (W.cls c).fields,
      ∀ x, (.str f.name, x) ∈ kvs' → (.str (extName C (W.cls c).kind f), x) ∈ kvs := by
    intro info kvs' hi hm f hf x hx
    apply dget_mem_str
    rw [← hm.dget hi hw hn hf]
    exact dget_of_mem_str (hm.nodup hn) hx
  have heq : ∀ {info : ObjInfo} {kvs1 kvs' : List (Val × Val)}, Mangled C info.transforms v kvs1 kvs' → kvs1 = kvs := fun hm => hm.1.unique ho.data
  cases h with
  | stop hk' he => obtain ⟨hints, hh⟩ := attrHints_total _ (hatt hk'); rw [hh] at he; cases he
  | mangle hi he _ =>
    obtain ⟨htr, he⟩ := he
    rcases he with ⟨hno, _⟩ | ⟨hfe, _, kvs1, n, x, rfl, hx, hfate⟩
    · rcases ho.data with h | ⟨fs, h, _⟩
      · exact hno _ h
      · subst h; exact hns (hren hi htr) fs hv
    · have := ho.data.unique (Or.inl rfl); subst this
      obtain ⟨f, hf, hkf⟩ := ho.known hfe _ hx
      dsimp only at hkf
      cases hkf
      rw [hi.transforms, keyFate_ext hw hf] at hfate
      split at hfate <;> cases hfate
  | noDict _ hno => exact hno _ ho.data
  | missing hi hm hmiss =>
    have := heq hm; subst this
    obtain ⟨n, h1, h2⟩ := hmiss
    exact h2 (hnec hi hm n h1)
  | extra hi hm hfe hex =>
    have := heq hm; subst this
    obtain ⟨p, hp, hp'⟩ := hex
    rw [hm.known hi hw (ho.known hfe) p hp] at hp'; cases hp'
  | extraKey hi hm hfe hex =>
    have := heq hm; subst this
    obtain ⟨p, hp, hp'⟩ := hex
    obtain ⟨n, _, he⟩ := isFieldKey_iff.1 (hm.known hi hw (ho.known hfe) p hp)
    rw [he] at hp'; cases hp'
  | field hi hm _ hf =>
    have := heq hm; subst this
    obtain ⟨m, x, ft, hmem, hh, hc⟩ := hf.error rfl
    obtain ⟨g, hg, hgn, hgt⟩ := hi.hints _ _ hh
    subst hgn
    obtain ⟨_, u, y, hu, hy⟩ := ho.field g hg x (hback hi hm g hg x hmem)
    have := hgt.unique hu; subst this
    rcases hc with ⟨h', e', hp, hP, _⟩ | ⟨c', hp, _⟩
    · exact hP.2.2 hp (hv.trans (hm.within hmem)) e' rfl y hy
    · exact no_handler (hfu g hg _ hgt) hp hy
  | @construct info kvs1 kvs' params x hi hm hnec' hf hcon =>
    have := heq hm; subst this
    have hkv := hk.within hv
    obtain ⟨l, h1, h2, h3⟩ := hf.triples (Q := fun m x y => ∃ ft, aget info.hints m = some ft ∧ Converts W C F x ft y)
      (fun m x hx ft h y hh hp hP => ⟨ft, hh, (hP.1 hp (hkv.within (hm.within hx))).1 y rfl⟩) (hm.nodup hn) (by simp) _ rfl
    simp only [List.nil_append] at h2
    by_cases hkd : (W.cls c).kind = .typeddict
    · unfold construct at hcon
      dsimp only at hcon; rw [hkd] at hcon; cases hcon
    obtain ⟨lb, hb1, hb2, hb3⟩ := hbuilt hkd
    have hq : ∀ q ∈ l, ∃ f ∈ (W.cls c).fields, f.name = q.1 ∧ (.str (extName C (W.cls c).kind f), q.2.1) ∈ kvs1 := by
      intro q hq
      obtain ⟨ft, hft, _⟩ := h3 q hq
      obtain ⟨g, hg, hgn, _⟩ := hi.hints _ _ hft
      have : (Val.str q.1, q.2.1) ∈ l.map (fun q => (Val.str q.1, q.2.1)) := List.mem_map.2 ⟨q, hq, rfl⟩
      rw [← h1] at this
      exact ⟨g, hg, hgn, hback hi hm g hg _ (by rw [hgn]; exact (List.mem_filter.1 this).1)⟩
    have harg : ∀ p ∈ params, ∃ f ∈ (W.cls c).fields, f.name = p.1 ∧ Argument (W.cls c).kind f := by
      intro p hp
      rw [h2] at hp
      obtain ⟨q, hql, rfl⟩ := List.mem_map.1 hp
      obtain ⟨f, hf', hfn, hx⟩ := hq q hql
      exact ⟨f, hf', hfn, (ho.field f hf' _ hx).1⟩
    have hfc : ∀ f ∈ (W.cls c).fields, (∀ y, aget params f.name = some y → FieldConv W C F c kvs1 f (some y)) ∧
        (aget params f.name = none → extName C (W.cls c).kind f ∉ strKeys kvs1) := by
      intro f hf'
      rw [h2]
      refine fieldConv hi hw hm hn h1
        (fun q hq ft hft => by obtain ⟨ft', h6, h7⟩ := h3 q hq; rw [hft] at h6; cases h6; exact h7)
        (fun q hq => by obtain ⟨ft', h6, h7⟩ := h3 q hq; exact ⟨ft', h6⟩) hf' ?_
      intro hsome
      rw [← h2] at hsome
      obtain ⟨p, hp, he⟩ := List.mem_map.1 ((aget_isSome_iff _ _).1 hsome)
      obtain ⟨g, hg, hgn, hga⟩ := harg p hp
      have := nodup_map_inj hw.names hg hf' (hgn.trans he); subst this
      exact hga
    obtain ⟨fs, hfill⟩ := fillFields_total (params := params) (W.cls c).fields (by
      intro f hf'
      cases ha : aget params f.name with
      | some y => exact Or.inl rfl
      | none =>
        cases hdf : f.default with
        | some d => exact Or.inr (Or.inl rfl)
        | none => exact Or.inr (Or.inr (ho.absent hkd f hf' ((hfc f hf').2 ha) hdf)))
    have key : (W.cls c).kind = .dataclass ∨ (W.cls c).kind = .attrs → params.all (fun p => isInitArg (W.cls c) p.1) = true := by
      intro hk'
      refine List.all_eq_true.2 (fun p hp => ?_)
      obtain ⟨f, hf', hfn, ha⟩ := harg p hp
      rw [← hfn]; exact argument_init hf' hk' ha
    have hcall : ∃ fs', W.initHook c fs = .ok fs' ∨ (W.cls c).kind = .namedtuple := by
      by_cases hnt : (W.cls c).kind = .namedtuple
      · exact ⟨[], Or.inr hnt⟩
      rcases hinit with hinit | hinit
      · obtain ⟨fs', h⟩ := hinit fs; exact ⟨fs', Or.inl h⟩
      obtain ⟨l', h4, h5, h6⟩ := fillFields_options (Q := FieldConv W C F c kvs1) (fun f hf' => ⟨(hfc f hf').1, fun hnone =>
        ⟨fun d hdf => .default ((hfc f hf').2 hnone) hdf, fun hdf hini => .unset hnt ((hfc f hf').2 hnone) hdf hini⟩⟩) hfill
      have : l' = lb := fields_unique (h4.symm.trans hb1) h5 hb2 (fun f hf' o o' =>
        FieldConv.unique hv ho.data hn (hinit f (by rw [h4]; exact hf')))
      subst this
      unfold Built at hb3
      rw [← h6] at hb3
      cases hk' : (W.cls c).kind with
      | typeddict => exact absurd hk' hkd
      | namedtuple => exact absurd hk' hnt
      | dataclass => rw [hk'] at hb3; obtain ⟨fs', h, _⟩ := hb3; exact ⟨fs', Or.inl h⟩
      | attrs => rw [hk'] at hb3; obtain ⟨fs', h, _⟩ := hb3; exact ⟨fs', Or.inl h⟩
    obtain ⟨fs', hcall⟩ := hcall
    unfold construct at hcon
    dsimp only at hcon
    cases hk' : (W.cls c).kind with
    | typeddict => exact absurd hk' hkd
    | namedtuple => rw [hk', hfill] at hcon; cases hcon
    | dataclass =>
      have := key (Or.inl hk')
      rw [hk'] at hcon hcall; dsimp only at hcon
      rcases hcall with hcall | hcall
      · rw [if_pos this, hfill] at hcon; dsimp only at hcon; rw [hcall] at hcon; cases hcon
      · cases hcall
    | attrs =>
      have := key (Or.inr hk')
      rw [hk'] at hcon hcall; dsimp only at hcon
      rcases hcall with hcall | hcall
      · rw [if_pos this, hfill] at hcon; dsimp only at hcon; rw [hcall] at hcon; cases hcon
      · cases hcall


section
variable {v0 : Val}

theorem LoadSem.refused {x : Val} {u : Ty} {a : Option Annotation} {e : Exc} (hd : C.Usual W u) (h : LoadSem W C (RefuseP W C F FK v0) x u a (.error e))
    (hx : Within v0 x) (r : Val) : ¬ Converts W C F x u r := by
  cases h with
  | noHandler hp => exact no_handler hd hp
  | err hp hP => exact hP.2.2 hp hx _ rfl r

theorem CallSem.refused {m : Exc} {x : Val} {u : Ty} {e : Exc} (hd : C.Usual W u) (h : CallSem W C (RefuseP W C F FK v0) m x u (.error e))
    (hx : Within v0 x) (r : Val) : ¬ Converts W C F x u r := by
  cases h with
  | noHandler hp => exact no_handler hd hp
  | call hp hP => exact hP.2.2 hp hx _ rfl r

theorem LoadSem.gives {x : Val} {u : Ty} {a : Option Annotation} {y : Val} (h : LoadSem W C (RefuseP W C F FK v0) x u a (.ok y))
    (hk : KeysDistinct C x) : Converts W C F x u y := by
  cases h with
  | ok hp hP => exact (hP.1 hp hk).1 y rfl

/-- Instances of basic types, kept in dictionaries, can also be converted. -/
theorem ConvertsElem.convert {x : Val} {u : Ty} {y : Val} (h : ConvertsElem W C F x u y)
    (hb : u = .prim .int → ∀ b, x = .bool b → C.basiccast = true ∧ ∃ r, W.call (.prim .int) (.bool b) = .ok r) : ∃ r, Converts W C F x u r := by
  cases h with
  | conv h => exact ⟨_, h⟩
  | @keep p _ hp hi =>
    by_cases ht : typeOf x = .prim p
    · exact ⟨_, .exact (.inl hp) ht⟩
    · have key : p = .int ∧ ∃ b, x = .bool b := by
        cases x <;> cases p <;> simp_all [isInst, typeOf]
      obtain ⟨rfl, b, rfl⟩ := key
      obtain ⟨h1, r, h2⟩ := hb rfl b rfl
      exact ⟨r, .cast h1 hp (by simp) ht h2⟩

end

theorem Served.stock {t : Ty} {h : Handler} (hs : Served W C t h) : Served W C.stock t h := by
  cases hs <;> constructor <;> assumption

/-- What one step of the loader refuses has no conversion. -/
theorem refuse_step (hm : C.Mixed) (hcc : CalmConditions W C) (hW : W.NeverStops) (hl : W.Lawful) (hlaw : W.NotRequiredLaw) (hdbg : C.uniondebugconflict = false)
    {s : LState} {v0 : Val} {t0 : Ty} (hus : ∀ u, Meets W C s t0 u → C.Usual W u) (hset : Consistent W C s v0 t0) (hk : KeysDistinct C v0) (h : Handler) (v : Val) (t : Ty)
    (o : Except Exc Val) (hg : Meets W C s t0 t)
    (hs : StepSem W C ⟨fun n u => Meets W C s t0 u ∧ Known W s n u, Means (namesIn W s t0)⟩
      (RefuseP W C (Means (namesIn W s t0)) (Known W s) v0) h v t o) :
    RefuseP W C (Means (namesIn W s t0)) (Known W s) v0 h v t o := by
  have hmean : ∀ n u, Meets W C s t0 (.fref n) → Meets W C s t0 u ∧ Known W s n u → Means (namesIn W s t0) n u := by
    rintro n u hn ⟨hu, ⟨fr, h1, h2⟩ | h⟩
    · refine ⟨_, by unfold namesIn; rw [h1], ?_⟩
      rw [h2]
    · exact hset.names n u hn hu h
  refine ⟨?_, ?_, ?_⟩
  · exact conversion_step (F := ⟨fun n u => Meets W C s t0 u ∧ Known W s n u, Means (namesIn W s t0)⟩) hcc hW (G := Meets W C s t0) hmean hus
      (fun k v hd' => (hset.dicts k v hd').pick_usual (hus _ (.dictKey hd')) (hus _ (.dictVal hd'))) hset.classes hset.converters h v t o hg (hs.mono (fun _ _ _ _ h => h.1) (fun _ _ h => h) (fun _ _ h => h))
  · exact crash_step hm hcc hl (F := Known W s) (fun _ _ h => h) h v t o
      (StepSem.mono (F' := .of (Known W s)) (fun _ _ _ _ h => h.2.1) (fun _ _ h => And.right h) (fun _ _ h => False.elim h) hs)
  intro hp hv e ho r
  subst ho
  have hkv := hk.within hv
  have hsup : ∀ {u}, (∃ k, Meets W C s t0 (.coll k u)) ∨ (∃ w, Meets W C s t0 (.dict u w)) ∨ (∃ w, Meets W C s t0 (.dict w u)) → ∀ {c}, pick W C u ≠ .error c := by
    intro u hu c hpe
    obtain ⟨h', hser⟩ := hset.supported u hu
    have hu' : Meets W C s t0 u := by
      rcases hu with ⟨_, hu⟩ | ⟨_, hu⟩ | ⟨_, hu⟩
      · exact .coll hu
      · exact .dictKey hu
      · exact .dictVal hu
    have := (hus u hu').symm.trans hpe
    rw [pick_iff_index.2 ((C46_table C.stock_default u h').2 hser.stock)] at this; cases this
  cases hs with
  | leaf hleaf h => exact leaf_refuses (hus _ hg) hp hleaf h r
  | custom hi hsc => exact absurd (picked_of_stock ((hus _ hg).symm.trans hp)) Picked.not_custom
  | mismatch hnl hsu =>
    intro hc
    cases picked_of_stock ((hus _ hg).symm.trans hp) with
    | obj => rename_i c; revert hsu; cases hkd : (W.cls c).kind <;> simp [suits, objHandler, hkd]
    | coll => rename_i k u; cases k <;> cases hsu
    | bare hb => cases hc
    | _ => first | (cases hnl; done) | (cases hsu; done)
  | iterDict hki hdv =>
    intro hc
    cases picked_of_stock ((hus _ hg).symm.trans hp) with
    | coll =>
      cases hc with
      | coll _ hnd => rw [hdv] at hnd; cases hnd
      | set _ hnd => rw [hdv] at hnd; cases hnd
    | tuple =>
      cases hc with
      | tuple hnd => rw [hdv] at hnd; cases hnd
    | obj => rename_i c; revert hki; cases (W.cls c).kind <;> intro hki <;> cases hki
    | bare hb => cases hc
    | _ => cases hki
  | iterLookup hki hp' => exact absurd hp' (hsup (Or.inl ⟨_, hg⟩))
  | iterNot hki hno =>
    intro hc
    cases hc with
    | coll _ _ hi => rw [hno] at hi; cases hi
    | set _ _ hi => rw [hno] at hi; cases hi
  | @iterErr _ _ k k' et h' xs _ hki hnd hx hp' hit =>
    intro hc
    have := picked_coll (picked_of_stock ((hus _ hg).symm.trans hp)) hki; subst this
    have key : ∃ l : List (Val × Val), xs = l.map (·.1) ∧ (∀ q ∈ l, ConvertsItem W C (Means (namesIn W s t0)) q.1 et q.2) ∧
        (k'.isSet = true → ∀ q ∈ l, W.hash q.2 = true) := by
      cases hc with
      | coll hns _ hi hel => rw [hx] at hi; cases hi; exact ⟨_, rfl, hel, fun h => by rw [hns] at h; cases h⟩
      | set _ _ hi hel hh => rw [hx] at hi; cases hi; exact ⟨_, rfl, hel, fun _ => hh⟩
    obtain ⟨l, rfl, hel, hhash⟩ := key
    obtain ⟨x, hxm, hwhy⟩ := hit.why rfl
    obtain ⟨q, hq, rfl⟩ := List.mem_map.1 hxm
    have hwx : Within v0 q.1 := .elem hv hx hxm
    rcases hwhy with ⟨e', he⟩ | ⟨hset', y, hy, hhy⟩
    · cases he with
      | call hnp hP =>
        have hel' := hel q hq
        generalize q.2 = y at hel'
        cases hel' with
        | conv _ hcv => exact hP.2.2 hp' hwx _ rfl _ hcv
        | keep hb => exact hnp (Or.inl hb)
    · have hcy : ConvertsItem W C (Means (namesIn W s t0)) q.1 et y := by
        cases hy with
        | pass hpt =>
          rcases hpt with h | ⟨ts, rfl, hb, h⟩
          · exact .keep h
          · have hb' := hb _ h
            refine .conv (fun ⟨p, hp, _⟩ => by cases hp) (.union h (fun _ => rfl) ?_)
            revert hb'
            generalize hty : typeOf q.1 = ty
            intro hb'
            cases ty <;> simp [Config.isBasic] at hb'
            exact .exact (.inl hb') hty
        | call hn hP => exact .conv (fun h => hn (Or.inl h)) ((hP.1 hp' (hk.within hwx)).1 y rfl)
      have := hset.sets _ _ hg hset' _ _ _ hwx (hel q hq) hcy
      rw [hhash hset' q hq, hhy] at this; cases this
  | tupDict hdv =>
    intro hc
    cases hc with
    | tuple hnd => rw [hdv] at hnd; cases hnd
  | tupLen hno =>
    intro hc
    cases hc with
    | tuple _ hi => rw [hno] at hi; cases hi
  | tupSize hx hlen =>
    intro hc
    cases hc with
    | tuple _ hi hfe =>
      rw [hx] at hi; cases hi
      rcases hlen with hlen | ⟨hf, hlen⟩
      · simp at hlen; omega
      · rw [hfe hf] at hlen; simp at hlen
  | tupErr _ hx _ hte =>
    intro hc
    obtain ⟨j, x, u, hjx, hju, e', hte', _⟩ := hte.error rfl
    cases hc with
    | @tuple _ l rest _ hi _ hel =>
      rw [hx] at hi; cases hi
      rw [List.getElem?_map, Option.map_eq_some_iff] at hju
      obtain ⟨q, hq, rfl⟩ := hju
      have hjl : j < l.length := (List.getElem?_eq_some_iff.1 hq).1
      rw [List.getElem?_append_left (by simpa using hjl), List.getElem?_map, hq] at hjx
      cases hjx
      have hql : q ∈ l := List.mem_of_getElem? hq
      have hwx : Within v0 q.1 := .elem hv hx (List.mem_append_left _ (List.mem_map.2 ⟨q, hql, rfl⟩))
      cases hte' with
      | noHandler hp' => exact no_handler (hus _ (.tuple hg (List.mem_map.2 ⟨q, hql, rfl⟩))) hp' (hel q hql)
      | call hp' _ hP => exact hP.2.2 hp' hwx _ rfl _ (hel q hql)
  | dictLookup hu hp' =>
    rcases hu with rfl | rfl
    · exact absurd hp' (hsup (Or.inr (Or.inl ⟨_, hg⟩)))
    · exact absurd hp' (hsup (Or.inr (Or.inr ⟨_, hg⟩)))
  | dictNot hno =>
    intro hc
    cases hc with
    | dict hdata => exact hno _ hdata
  | @dictErr _ kt vt kvs hk' hv' _ hdata hpk hpv hsl =>
    intro hc
    cases hc with
    | @dict _ _ _ l hdata' hkc hvc hhash =>
      have := hdata.unique hdata'; subst this
      obtain ⟨p, hpm, hwhy⟩ := hsl.error rfl
      obtain ⟨q, hq, rfl⟩ := List.mem_map.1 hpm
      have hwk := hv.trans (hdata.within hpm).1
      have hwv := hv.trans (hdata.within hpm).2
      rcases hwhy with hle | hle | ⟨_, k', hlk, hh⟩
      · obtain ⟨r', hr'⟩ := (hkc q hq).convert (fun hkt b hb => hset.ints kt vt hg (Or.inl hkt) b (by rw [← hb]; exact hwk))
        exact hle.refused (hus _ (.dictKey hg)) hwk _ hr'
      · obtain ⟨r', hr'⟩ := (hvc q hq).convert (fun hkt b hb => hset.ints kt vt hg (Or.inr hkt) b (by rw [← hb]; exact hwv))
        exact hle.refused (hus _ (.dictVal hg)) hwv _ hr'
      · have := hset.keys kt vt hg _ _ _ hwk (hkc q hq) (.conv (hlk.gives (hk.within hwk)))
        rw [hhash q hq, hh] at this; cases this
  | obj hob => exact obj_refuses hlaw (fun f hf u hu => hus _ (.field hg hf hu)) (hset.classes _ hg) (hset.converters _ hg) hv hk (hset.namespaces _ hg) (hset.inits _ hg) hob r
  | unionTag ht => exact absurd (.tag ht) (hset.unions _ _ hg hv)
  | unionCrash hne hord htry =>
    obtain ⟨htl, u, hu, hcall⟩ := htry.crashed rfl
    cases hcall with
    | noHandler hp' => rw [lookupExc_calm hcc hp'] at htl; cases htl
    | call hp' hP =>
      rcases (hP.2.1 hp').2 _ rfl with h | h
      · rw [htl] at h; cases h
      · exact absurd (.member (hord.perm.mem_iff.1 hu) h) (hset.unions _ _ hg hv)
  | unionNone hne hord htry =>
    intro hc
    cases hc with
    | union hu _ hcu =>
      obtain ⟨e', hcall⟩ := (htry.failed rfl).2.2 rfl _ (hord.perm.mem_iff.2 hu)
      exact hcall.refused (hus _ (.union hg hu)) hv _ hcu
  | unionMany hne hord htry => have := (htry.failed rfl).2.1 hdbg; omega
  | enumHints hn hh =>
    intro hc
    have hwhy := hh.why rfl
    cases hc with
    | enum hm => rw [hm.call] at hn; cases hn
    | hint _ hu hcv hm =>
      rcases hwhy _ hu with ⟨x, hx, hno⟩ | ⟨e', he⟩
      · obtain ⟨m', hm'⟩ := hset.enums _ _ hg hu _ _ _ _ hv hcv (hx.gives hkv) hm
        rw [hm'.call] at hno; cases hno
      · exact he.refused (hus _ (.enum hg hu)) hv _ hcv
  | frefDisabled hno =>
    intro hc
    cases hc with
    | fref hf => exact hno _ hf
  | frefUnknown hno =>
    intro hc
    cases hc with
    | fref hf => exact hno _ hf
  | fref hf huniq hle =>
    intro hc
    cases hc with
    | fref hf' hcv =>
      have := huniq _ hf'; subst this
      exact hle.refused (hus _ hf.1) hv _ hcv
  | newtype hle =>
    intro hc
    cases hc with
    | newtype hcv => exact hle.refused (hus _ (.newtype hg)) hv _ hcv

end TL
