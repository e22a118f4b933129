import Verif.Lemmas.Names
import Verif.Props.Dicts
/-!
# The object handlers
-/

namespace TL

variable {W : World} {C : Config}

/-- What the loop over the data leaves: each loaded field comes from the data, and each field found in the data is loaded. -/
structure ObjParams (W : World) (C : Config) (s : LState) (info : ObjInfo) (kvs : List (Val × Val))
    (acc params : List (String × Val)) : Prop where
  sound : ∀ m y, (m, y) ∈ params → (m, y) ∈ acc ∨ ∃ x ft, (.str m, x) ∈ kvs ∧ m ∈ info.fields ∧ aget info.hints m = some ft ∧
    AcceptsAs W C s x ft y
  complete : ∀ m x, (.str m, x) ∈ kvs → m ∈ info.fields → (aget params m).isSome = true
  keep : ∀ m, (aget acc m).isSome = true → (aget params m).isSome = true
  nodup : (acc.map (·.1)).Nodup → (params.map (·.1)).Nodup

/-- Why the loop over the data fails. -/
def ObjErr (W : World) (C : Config) (s : LState) (info : ObjInfo) (v : Val) (t : Ty) (kvs : List (Val × Val)) (e : Exc) : Prop :=
  ∃ m x, (.str m, x) ∈ kvs ∧ m ∈ info.fields ∧
    ((aget info.hints m = none ∧ e = .plain (.other 1)) ∨
     ∃ ft, aget info.hints m = some ft ∧
      ((∃ c, pick W C ft = .error c ∧ e = lookupExc (mkExc .tlType (.noHandler ft) v ft) c) ∨
       ∃ e', HandlerRaises W C s x ft e' ∧ Fails W C s x ft ∧ e = if e'.isTL then e'.push ⟨v, t, some (.field m)⟩ else e'))

theorem map_fst_aset_nodup {κ α : Type} [DecidableEq κ] {l : List (κ × α)} (h : (l.map (·.1)).Nodup) (k : κ) (v : α) :
    ((aset l k v).map (·.1)).Nodup := by
  have key : (aset l k v).map (·.1) = l.map (·.1) ∨ (k ∉ l.map (·.1) ∧ (aset l k v).map (·.1) = l.map (·.1) ++ [k]) := by
    clear h
    induction l with
    | nil => right; simp [aset]
    | cons p l ih =>
      obtain ⟨a, b⟩ := p
      simp only [aset]
      by_cases ha : a = k
      · left; simp [ha]
      · rw [if_neg ha]
        rcases ih with ih | ⟨h1, h2⟩
        · left; simp [ih]
        · right; exact ⟨by simp [h1]; exact fun h => ha h.symm, by simp [h2]⟩
  rcases key with key | ⟨h1, key⟩
  · rw [key]; exact h
  · rw [key]
    exact List.nodup_append.2 ⟨h, by simp, by rintro a ha b hb rfl; simp at hb; subst hb; exact h1 ha⟩

/-- Calling the handler of a field. -/
theorem post_field {n : Nat} {ft : Ty} {x : Val} {m : Exc} {s0 s : LState} (he : Ext W C s0 s) (hc : Coh W C s) :
    Post (do let h ← resolve W C ft m; run W C n h x ft) s
      (fun y s' => Ext W C s s' ∧ AcceptsAs W C s0 x ft y)
      (fun e s' => Ext W C s s' ∧ ((∃ c, pick W C ft = .error c ∧ e = lookupExc m c) ∨
        (HandlerRaises W C s0 x ft e ∧ Fails W C s0 x ft ∧ ∃ h, pick W C ft = .ok h))) := by
  rw [post_bind]
  unfold Post
  rw [resolve_eq hc]
  cases hp : pick W C ft with
  | error c => exact ⟨Ext.refl s, Or.inl ⟨c, rfl, rfl⟩⟩
  | ok h =>
    dsimp only
    have he1 := cacheIdx_ext (s := s) hp
    have hc1 := hc.ext he1
    have hi := cacheIdx_idx hc hp
    have hx := run_ext (W := W) (C := C) n h x ft (cacheIdx ft h s)
    have hreg : cacheReg W ft h (cacheIdx ft h s) = cacheIdx ft h s := by unfold cacheReg; rw [hi]
    cases hr : run W C n h x ft (cacheIdx ft h s) with
    | div => trivial
    | ok y s' =>
      exact ⟨he1.trans (hx.ok hr), _, s', he.trans he1, (loads_iff hc1).2 ⟨n, h, hp, by rw [hreg]; exact hr⟩⟩
    | err e s' =>
      refine ⟨he1.trans (hx.err hr), Or.inr ⟨⟨_, s', he.trans he1, n, h, hp, hr⟩,
        ⟨_, s', loadExc x ft none e, he.trans he1, (raises_iff hc1).2 (Or.inl ⟨n, h, e, hp, by rw [hreg]; exact hr, rfl⟩)⟩, h, rfl⟩⟩

theorem objFields_other (rec : Rec) (info : ObjInfo) (v : Val) (t : Ty) {k : Val} (hk : isFieldKey info.fields k = false) (x : Val)
    (rest : List (Val × Val)) (acc : List (String × Val)) :
    objFields W C rec info v t ((k, x) :: rest) acc = objFields W C rec info v t rest acc := by
  cases k <;> simp only [objFields]
  rw [if_neg]; intro h; simp only [isFieldKey] at hk; rw [hk] at h; cases h

theorem objFields_field (rec : Rec) (info : ObjInfo) (v : Val) (t : Ty) {m : String} (hm : m ∈ info.fields) (x : Val)
    (rest : List (Val × Val)) (acc : List (String × Val)) :
    objFields W C rec info v t ((.str m, x) :: rest) acc =
      match aget info.hints m with
      | none => M.throw (.plain (.other 1))
      | some ft => (resolve W C ft (mkExc .tlType (.noHandler ft) v ft)) >>= fun h =>
        (M.rescue (rec h x ft) (fun e =>
            if e.isTL then M.throw (e.push ⟨v, t, some (.field m)⟩) else M.throw e)) >>= fun y =>
          objFields W C rec info v t rest (aset acc m y) := by
  rw [objFields, if_pos (by simpa using hm)]
  cases aget info.hints m <;> rfl

theorem post_objFields {n : Nat} {info : ObjInfo} {v : Val} {t : Ty} {s0 : LState} (kvs : List (Val × Val)) :
    ∀ (acc : List (String × Val)) (s : LState), Ext W C s0 s → Coh W C s →
    Post (objFields W C (run W C n) info v t kvs acc) s
      (fun params s' => Ext W C s s' ∧ ObjParams W C s0 info kvs acc params)
      (fun e s' => Ext W C s s' ∧ ObjErr W C s0 info v t kvs e) := by
  induction kvs with
  | nil =>
    intro acc s _ _
    exact ⟨Ext.refl s, fun _ _ h => Or.inl h, fun _ _ h => (by cases h), fun _ h => h, fun h => h⟩
  | cons p kvs ih =>
    obtain ⟨k, x⟩ := p
    intro acc s he hc
    by_cases hk : isFieldKey info.fields k = true
    · have : ∃ m, k = .str m ∧ m ∈ info.fields := by
        cases k <;> simp [isFieldKey] at hk
        exact ⟨_, rfl, hk⟩
      obtain ⟨m, rfl, hm⟩ := this
      rw [objFields_field _ _ _ _ hm]
      cases hh : aget info.hints m with
      | none => exact ⟨Ext.refl s, m, x, by simp, hm, Or.inl ⟨hh, rfl⟩⟩
      | some ft =>
        dsimp only
        have hpf := post_field (n := n) (ft := ft) (x := x) (m := mkExc .tlType (.noHandler ft) v ft) he hc
        rw [post_bind] at hpf
        unfold Post at hpf ⊢
        rw [M.bind_apply]
        rw [resolve_eq hc] at hpf ⊢
        cases hp : pick W C ft with
        | error c =>
          dsimp only
          exact ⟨Ext.refl s, m, x, by simp, hm, Or.inr ⟨ft, hh, Or.inl ⟨c, hp, rfl⟩⟩⟩
        | ok h =>
          rw [hp] at hpf
          dsimp only at hpf ⊢
          change Post _ (cacheIdx ft h s) _ _ at hpf
          change Post _ (cacheIdx ft h s) _ _
          rw [post_bind, post_rescue]
          refine hpf.mono ?_ ?_
          · rintro y s' ⟨he1, hy⟩
            refine (ih (aset acc m y) s' (he.trans he1) (hc.ext he1)).mono ?_ ?_
            · rintro params s2 ⟨he2, hok⟩
              refine ⟨he1.trans he2, ?_, ?_, ?_, ?_⟩
              · intro m' y' hmem
                rcases hok.sound m' y' hmem with hmem | ⟨x', ft', h1, h2⟩
                · rcases mem_aset hmem with h | h
                  · cases h; right; exact ⟨x, ft, by simp, hm, hh, hy⟩
                  · left; exact h
                · right; exact ⟨x', ft', List.mem_cons_of_mem _ h1, h2⟩
              · intro m' x' hmem hf
                rcases List.mem_cons.1 hmem with h | h
                · cases h; exact hok.keep m (by simp)
                · exact hok.complete m' x' h hf
              · intro m' hmem; refine hok.keep m' ?_
                rw [aget_aset]; split
                · rfl
                · exact hmem
              · intro hn; exact hok.nodup (map_fst_aset_nodup hn m y)
            · rintro e s2 ⟨he2, m', x', h1, h2⟩
              exact ⟨he1.trans he2, m', x', List.mem_cons_of_mem _ h1, h2⟩
          · rintro e s' ⟨he1, hcase⟩
            have : ObjErr W C s0 info v t ((.str m, x) :: kvs) (if e.isTL then e.push ⟨v, t, some (.field m)⟩ else e) := by
              rcases hcase with ⟨c, h1, _⟩ | ⟨h1, h2, _⟩
              · cases h1
              · exact ⟨m, x, by simp, hm, Or.inr ⟨ft, hh, Or.inr ⟨e, h1, h2, rfl⟩⟩⟩
            split
            · rename_i ht; rw [if_pos ht] at this; exact ⟨he1, this⟩
            · rename_i ht; rw [if_neg ht] at this; exact ⟨he1, this⟩
    · have hk' : isFieldKey info.fields k = false := by simpa using hk
      rw [objFields_other _ _ _ _ hk']
      refine (ih acc s he hc).mono ?_ ?_
      · rintro params s' ⟨he1, hok⟩
        refine ⟨he1, ?_, ?_, hok.keep, hok.nodup⟩
        · intro m y hmem
          rcases hok.sound m y hmem with h | ⟨x', ft, h1, h2⟩
          · left; exact h
          · right; exact ⟨x', ft, List.mem_cons_of_mem _ h1, h2⟩
        · intro m x' hmem hf
          rcases List.mem_cons.1 hmem with h | h
          · cases h; simp [isFieldKey, hf] at hk'
          · exact hok.complete m x' h hf
      · rintro e s' ⟨he1, m', x', h1, h2⟩
        exact ⟨he1, m', x', List.mem_cons_of_mem _ h1, h2⟩

/-- Why building the object fails. -/
def constructExc (c : ExcClass) : Exc :=
  if c.isType then mkExc0 .tlType (.py c) else if c.isValue then mkExc0 .tlValue (.py c) else .plain c

theorem objItems_iff (v : Val) (kvs : List (Val × Val)) : (∃ v', objItems C v = some (v', kvs)) ↔ DictData C v kvs := by
  unfold DictData objItems
  cases v <;> simp
  intro _; exact eq_comm

theorem objItems_none (v : Val) : objItems C v = none ↔ ∀ kvs, ¬ DictData C v kvs := by
  constructor
  · intro h kvs hd
    obtain ⟨v', hv⟩ := (objItems_iff v kvs).2 hd
    rw [hv] at h; cases h
  · intro h
    cases ho : objItems C v with
    | none => rfl
    | some p => exact absurd ((objItems_iff v p.2).1 ⟨p.1, ho⟩) (h p.2)

/-- Outcomes of the object loader. -/
theorem post_objloader {n : Nat} {info : ObjInfo} {v : Val} {c : Nat} {s0 s : LState} (he : Ext W C s0 s) (hc : Coh W C s) :
    Post (objloader W C (run W C n) info v c) s
      (fun r s' => Ext W C s s' ∧ ∃ kvs params, DictData C v kvs ∧ (∀ f ∈ info.necessary, f ∈ strKeys kvs) ∧
        (C.failonextra = true → ∀ p ∈ kvs, isFieldKey info.fields p.1 = true) ∧
        ObjParams W C s0 info kvs [] params ∧ construct W c params = .ok r)
      (fun e s' => Ext W C s s' ∧ (((∀ kvs, ¬ DictData C v kvs) ∧ e = mkExc .tlAttr (.py .attr) v (.obj c)) ∨
        ∃ kvs, DictData C v kvs ∧
        ((∃ f ∈ info.necessary, f ∉ strKeys kvs) ∧ e.cls = .tlValue ∨
         (C.failonextra = true ∧ ∃ p ∈ kvs, isFieldKey info.fields p.1 = false ∧
            (e.cls = .tlValue ∧ e.isTL = true ∨ (e = .plain .type ∧ ∃ p ∈ kvs, strKey p.1 = none))) ∨
         (∃ v', ObjErr W C s0 info v' (.obj c) kvs e ∧ (∀ f ∈ info.necessary, f ∈ strKeys kvs)) ∨
         (∃ params x, ObjParams W C s0 info kvs [] params ∧ construct W c params = .error x ∧ e = constructExc x ∧
           (∀ f ∈ info.necessary, f ∈ strKeys kvs))))) := by
  unfold objloader
  cases hv : objItems C v with
  | none => exact ⟨Ext.refl s, Or.inl ⟨(objItems_none v).1 hv, rfl⟩⟩
  | some p =>
    obtain ⟨v', kvs⟩ := p
    have hdata := (objItems_iff v kvs).1 ⟨v', hv⟩
    dsimp only
    by_cases hnec : info.necessary.all (fun n => dhas kvs (.str n)) = true
    · have hnec' : ∀ f ∈ info.necessary, f ∈ strKeys kvs := by
        intro f hf; rw [List.all_eq_true] at hnec; exact (dhas_str kvs f).1 (hnec f hf)
      simp only [hnec, Bool.not_true, Bool.false_eq_true, if_false]
      by_cases hex : (C.failonextra && !(extraKeys info kvs).isEmpty) = true
      · rw [if_pos hex]
        simp only [Bool.and_eq_true, Bool.not_eq_true'] at hex
        have hne : ∃ p ∈ kvs, isFieldKey info.fields p.1 = false := by
          cases hx : extraKeys info kvs with
          | nil => rw [hx] at hex; simp at hex
          | cons a l =>
            have : a ∈ extraKeys info kvs := by rw [hx]; simp
            unfold extraKeys at this
            simp only [List.mem_filter, List.mem_map, Bool.not_eq_true'] at this
            obtain ⟨⟨p, hp, rfl⟩, h2⟩ := this
            exact ⟨p, hp, h2⟩
        obtain ⟨p, hp, hpf⟩ := hne
        split
        · exact ⟨Ext.refl s, Or.inr ⟨kvs, hdata, Or.inr (Or.inl ⟨hex.1, p, hp, hpf, Or.inl ⟨rfl, rfl⟩⟩)⟩⟩
        · rename_i hall
          refine ⟨Ext.refl s, Or.inr ⟨kvs, hdata, Or.inr (Or.inl ⟨hex.1, p, hp, hpf, Or.inr ⟨rfl, ?_⟩⟩)⟩⟩
          simp only [List.all_eq_true, Classical.not_forall] at hall
          obtain ⟨k, hk, hk'⟩ := hall
          unfold extraKeys at hk
          simp only [List.mem_filter, List.mem_map] at hk
          obtain ⟨⟨q, hq, rfl⟩, _⟩ := hk
          refine ⟨q, hq, ?_⟩
          cases hs : strKey q.1 with
          | none => rfl
          | some m => rw [strKey_eq] at hs; rw [hs] at hk'; simp [typeOf] at hk'
      · rw [if_neg hex, post_bind]
        have hextra : C.failonextra = true → ∀ p ∈ kvs, isFieldKey info.fields p.1 = true := by
          intro hf p hp
          simp only [hf, Bool.true_and, Bool.not_eq_true', Bool.not_eq_false, List.isEmpty_iff] at hex
          cases hq : isFieldKey info.fields p.1 with
          | true => rfl
          | false =>
            have : p.1 ∈ extraKeys info kvs := by
              unfold extraKeys
              simp only [List.mem_filter, List.mem_map, Bool.not_eq_true']
              exact ⟨⟨p, hp, rfl⟩, hq⟩
            rw [hex] at this; cases this
        refine (post_objFields (n := n) kvs [] s he hc).mono ?_ ?_
        · rintro params s' ⟨he1, hok⟩
          cases hcon : construct W c params with
          | ok r => exact ⟨he1, kvs, params, hdata, hnec', hextra, hok, hcon⟩
          | error x =>
            have key : ∀ e : Exc, e = constructExc x → Ext W C s s' ∧ (((∀ kvs, ¬ DictData C v kvs) ∧ e = mkExc .tlAttr (.py .attr) v (.obj c)) ∨
              ∃ kvs, DictData C v kvs ∧
              ((∃ f ∈ info.necessary, f ∉ strKeys kvs) ∧ e.cls = .tlValue ∨
               (C.failonextra = true ∧ ∃ p ∈ kvs, isFieldKey info.fields p.1 = false ∧
                  (e.cls = .tlValue ∧ e.isTL = true ∨ (e = .plain .type ∧ ∃ p ∈ kvs, strKey p.1 = none))) ∨
               (∃ v', ObjErr W C s0 info v' (.obj c) kvs e ∧ (∀ f ∈ info.necessary, f ∈ strKeys kvs)) ∨
               (∃ params x, ObjParams W C s0 info kvs [] params ∧ construct W c params = .error x ∧ e = constructExc x ∧
                 (∀ f ∈ info.necessary, f ∈ strKeys kvs)))) := fun e h =>
              ⟨he1, Or.inr ⟨kvs, hdata, Or.inr (Or.inr (Or.inr ⟨params, x, hok, hcon, h, hnec'⟩))⟩⟩
            dsimp only
            split
            · rename_i h1; exact key _ (by simp [constructExc, h1])
            · split
              · rename_i h1 h2; exact key _ (by simp [constructExc, h1, h2])
              · rename_i h1 h2; exact key _ (by simp [constructExc, h1, h2])
        · rintro e s' ⟨he1, hok⟩
          exact ⟨he1, Or.inr ⟨kvs, hdata, Or.inr (Or.inr (Or.inl ⟨v', hok, hnec'⟩))⟩⟩
    · have hnec' : info.necessary.all (fun n => dhas kvs (.str n)) = false := by simpa using hnec
      rw [if_pos (by rw [hnec']; rfl)]
      refine ⟨Ext.refl s, Or.inr ⟨kvs, hdata, Or.inl ⟨?_, rfl⟩⟩⟩
      simp only [List.all_eq_true, Classical.not_forall] at hnec
      obtain ⟨f, hf, hf'⟩ := hnec
      exact ⟨f, hf, fun h => hf' ((dhas_str kvs f).2 h)⟩

end TL
