import Verif.Spec.Conversion
import Verif.Lemmas.Quiet
/-!
# Lemmas for C73: what a step of the loader returns comes from the data
-/

namespace TL

variable {W : World} {C : Config}

/-! ## Leaves -/

theorem enumCall_first {e : Nat} {v m : Val} (h : enumCall W e v = some m) : EnumFirst W e v m := by
  unfold enumCall at h
  split at h
  · rename_i hm
    cases h
    obtain ⟨p, hp, hv⟩ := List.mem_map.1 hm
    exact Or.inl ⟨p, hp, hv.symm, rfl⟩
  · rename_i hm
    have hno : ∀ p ∈ (W.enm e).members, v ≠ .enumv e p.1 := fun p hp hv => hm (List.mem_map.2 ⟨p, hp, hv.symm⟩)
    split at h
    · rename_i p hp
      cases h
      rw [List.find?_eq_some_iff_getElem] at hp
      obtain ⟨h1, i, hi, h2, h3⟩ := hp
      refine Or.inr (Or.inl ⟨hno, i, p.1, p.2, by rw [List.getElem?_eq_getElem hi, h2], h1, ?_, rfl⟩)
      intro j hj q hq
      have hj' := Nat.lt_trans hj hi
      rw [List.getElem?_eq_getElem hj'] at hq
      cases hq
      simpa using h3 j hj
    · rename_i hf
      obtain ⟨n, hn, rfl⟩ := Option.map_eq_some_iff.1 h
      obtain ⟨h1, h2⟩ := Option.filter_eq_some_iff.1 hn
      exact Or.inr (Or.inr ⟨fun p hp => ⟨hno p hp, by simpa using List.find?_eq_none.1 hf p hp⟩, n, h1, List.contains_iff_mem.1 h2, rfl⟩)

theorem EnumFirst.call {e : Nat} {v m : Val} (h : EnumFirst W e v m) : enumCall W e v = some m := by
  unfold enumCall
  split
  · rename_i hm
    obtain ⟨p, hp, hv⟩ := List.mem_map.1 hm
    rcases h with ⟨p, hp, hv, rfl⟩ | ⟨hno, _⟩ | ⟨hno, _⟩
    · rfl
    · exact absurd hv.symm (hno p hp)
    · exact absurd hv.symm (hno p hp).1
  · rename_i hm
    rcases h with ⟨p, hp, hv, rfl⟩ | ⟨_, i, n, x, h1, h2, h3, rfl⟩ | ⟨hno, n, h1, h2, rfl⟩
    · exact absurd (List.mem_map.2 ⟨p, hp, hv.symm⟩) hm
    · obtain ⟨hi, h1⟩ := List.getElem?_eq_some_iff.1 h1
      have : (W.enm e).members.find? (fun m => pyEq m.2 v) = some (n, x) := List.find?_eq_some_iff_getElem.2 ⟨h2, i, hi, h1, fun j hj => by
        have := h3 j hj _ (List.getElem?_eq_getElem (Nat.lt_trans hj hi))
        simp [this]⟩
      rw [this]
    · have : (W.enm e).members.find? (fun m => pyEq m.2 v) = none := List.find?_eq_none.2 (fun p hp => by simp [(hno p hp).2])
      rw [this]
      dsimp only
      rw [h1, Option.filter_some, List.contains_iff_mem.2 h2]
      rfl

/-- What a handler that calls no other returns is what a load returns. -/
theorem leaf_loads_fresh {h : Handler} {v : Val} {t : Ty} {r : Val} (hp : pick W C t = .ok h) (ho : ∀ rec : Rec, step W C rec h v t = M.lift (.ok r)) :
    ∃ s', Loads W C (fresh []) v t r s' := by
  refine ⟨cacheReg W t h (fresh []), (loads_iff (Reachable.new _ _).coh).2 ⟨1, h, hp, ?_⟩⟩
  show step W C _ h v t _ = _
  rw [ho]; rfl

theorem tdSeconds_of {v r : Val} (h : tdSeconds W v = .ok r) : SecondsOf W v r := by
  unfold tdSeconds at h
  split at h
  · split at h
    · rename_i n hv
      cases h
      unfold validTimedelta at hv; simp only [Bool.and_eq_true, decide_eq_true_eq] at hv
      exact Or.inl ⟨n, rfl, by omega, by omega, rfl⟩
    · cases h
  · cases h; exact Or.inr (Or.inl ⟨_, rfl, rfl⟩)
  · rename_i f
    cases hf : W.tdFloat f with
    | error e => rw [hf] at h; cases h
    | ok us => rw [hf] at h; cases h; exact Or.inr (Or.inr ⟨f, us, rfl, hf, rfl⟩)
  · cases h

theorem dtParse_of {k : DtKind} {v r : Val} (hd : C.Usual W (.dt k)) (h : dtParse W k v = .ok r)
    (ho : ∃ s', Loads W C (fresh []) v (.dt k) r s') : DateOf W k v r := by
  by_cases hv : ∃ x, v = .str x
  · obtain ⟨x, rfl⟩ := hv
    exact Or.inl ⟨x, rfl, h⟩
  · have hv' : ∀ x, v ≠ .str x := fun x hx => hv ⟨x, hx⟩
    refine Or.inr ⟨hv', ?_⟩
    cases k with
    | date =>
      obtain ⟨xs, y, m, d, h1, h2, h3, h4⟩ := (C33_date hd (.new _ _) v r hv').1 ho
      exact ⟨xs, _, 0, h1, h2, rfl, y, m, d, rfl, h3, h4⟩
    | time =>
      obtain ⟨xs, is, hh, mi, sec, us, n, h1, h2, h3, h4, h5⟩ := (C33_time hd (.new _ _) v r hv').1 ho
      exact ⟨xs, is, n, h1, h2, hh, mi, sec, us, h3, h4, h5⟩
    | datetime =>
      obtain ⟨xs, is, y, m, d, hh, mi, sec, us, n, h1, h2, h3, h4, h5, h6, h7⟩ := (C33_datetime hd (.new _ _) v r hv').1 ho
      exact ⟨xs, is, n, h1, h2, y, m, d, hh, mi, sec, us, h3, h4, h5, h6, h7⟩

theorem leaf_converts {F : String → Ty → Prop} {h : Handler} {v : Val} {t : Ty} {r : Val} (hd : C.Usual W t) (hpk : pick W C t = .ok h)
    (hleaf : h.isLeaf = true) (ho : ∀ rec : Rec, step W C rec h v t = M.lift (.ok r)) : Converts W C F v t r := by
  have hs := leaf_ok ho
  have hl := leaf_loads_fresh hpk ho
  cases picked_of_stock (hd.symm.trans hpk) with
  | none =>
    simp only [step, noneload] at hs
    split at hs
    · rename_i hv; subst hv; cases hs; exact .exact (.inr rfl) rfl
    · cases hs
  | basic hb hn =>
    rename_i p
    simp only [step, basicload] at hs
    split at hs
    · rename_i hne
      split at hs
      · rename_i hbc
        cases hc : pyCall W (.prim p) v with
        | ok x => rw [hc] at hs; cases hs; exact .cast hbc hb hn (by simpa using hne) hc
        | error e => rw [hc] at hs; dsimp only at hs; (repeat' split at hs) <;> cases hs
      · cases hs
    · rename_i ht; cases hs; exact .exact (.inl hb) (by simpa using ht)
  | lit =>
    obtain ⟨rfl, l, h1, h2⟩ := (C26_literal hd (.new _ _) v r).1 hl
    exact .lit h1 h2
  | dt =>
    rename_i k
    simp only [step, datetimeload] at hs
    cases hx : dtParse W k v with
    | ok x => rw [hx] at hs; cases hs; exact .dt (dtParse_of hd hx hl)
    | error e => rw [hx] at hs; dsimp only at hs; (repeat' split at hs) <;> cases hs
  | pattern => exact .pattern ((C35_pattern_partial hd (.new _ _) v r).1 hl)
  | timedelta =>
    simp only [step, timedeltaload] at hs
    cases hx : tdSeconds W v with
    | ok x => rw [hx] at hs; cases hs; exact .timedelta (tdSeconds_of hx)
    | error e => rw [hx] at hs; dsimp only at hs; (repeat' split at hs) <;> cases hs
  | strcons hc => exact .strcons hc ((C36_loads hd (.new _ _) hc v r).1 hl)
  | any => simp only [step, anyload] at hs; cases hs; exact .any
  | coll => rename_i k t; cases k <;> cases hleaf
  | obj => rename_i c; revert hleaf; cases (W.cls c).kind <;> intro hleaf <;> cases hleaf
  | bare hb => rcases hb with rfl | rfl | rfl | rfl | rfl <;> cases hleaf
  | _ => cases hleaf

theorem leaf_quiet (hW : W.NeverStops) {h : Handler} {v : Val} {t : Ty} {e : Exc} (hd : C.Usual W t) (hpk : pick W C t = .ok h)
    (hleaf : h.isLeaf = true) (ho : ∀ rec : Rec, step W C rec h v t = M.lift (.error e)) : e.cls ≠ .stopIteration := by
  have hs := leaf_err ho
  cases picked_of_stock (hd.symm.trans hpk) with
  | none =>
    simp only [step, noneload] at hs
    split at hs <;> cases hs
    simp [mkExc]
  | basic hb hn =>
    rename_i p
    simp only [step, basicload] at hs
    split at hs
    · split at hs
      · cases hc : pyCall W (.prim p) v with
        | ok x => rw [hc] at hs; cases hs
        | error e => rw [hc] at hs; dsimp only at hs; (repeat' split at hs) <;> cases hs <;> simp [mkExc]
      · cases hs; simp [mkExc]
    · cases hs
  | lit =>
    simp only [step, literalload] at hs
    split at hs <;> cases hs
    simp [mkExc]
  | dt =>
    rename_i k
    simp only [step, datetimeload] at hs
    cases hx : dtParse W k v with
    | ok x => rw [hx] at hs; cases hs
    | error e =>
      rw [hx] at hs; dsimp only at hs
      have : e ≠ .stopIteration := by rintro rfl; exact dtParse_quiet hW hx
      (repeat' split at hs) <;> cases hs <;> first | simp [mkExc]; done | exact this
  | pattern =>
    simp only [step, patternload] at hs
    cases hx : patCompile W v with
    | ok x => rw [hx] at hs; cases hs
    | error e =>
      rw [hx] at hs; dsimp only at hs
      have : e ≠ .stopIteration := by rintro rfl; exact patCompile_quiet hW hx
      (repeat' split at hs) <;> cases hs <;> first | simp [mkExc]; done | exact this
  | timedelta =>
    simp only [step, timedeltaload] at hs
    cases hx : tdSeconds W v with
    | ok x => rw [hx] at hs; cases hs
    | error e =>
      rw [hx] at hs; dsimp only at hs
      have : e ≠ .stopIteration := by rintro rfl; exact tdSeconds_quiet hW hx
      (repeat' split at hs) <;> cases hs <;> first | simp [mkExc]; done | exact this
  | strcons =>
    rename_i c _
    simp only [step, strconstructload] at hs
    cases hx : pyCall W (.strcons c) v with
    | ok x => rw [hx] at hs; cases hs
    | error e => rw [hx] at hs; dsimp only at hs; (repeat' split at hs) <;> cases hs <;> simp [mkExc]
  | any => simp only [step, anyload] at hs; cases hs
  | coll => rename_i k t; cases k <;> cases hleaf
  | obj => rename_i c; revert hleaf; cases (W.cls c).kind <;> intro hleaf <;> cases hleaf
  | bare hb => rcases hb with rfl | rfl | rfl | rfl | rfl <;> cases hleaf
  | _ => cases hleaf

/-! ## Loops -/

section
variable {P : Handler → Val → Ty → Except Exc Val → Prop}

theorem IterSem.pairs {h : Handler} {k : SeqKind} {et : Ty} {v : Val} {t : Ty} {xs : List Val} {i : Nat} {acc : List Val}
    {o : Except Exc (List Val)} (hs : IterSem W C P h k et v t xs i acc o) {Q : Val → Val → Prop}
    (hq : ∀ x ∈ xs, ∀ y, PassThrough C et x ∧ y = x ∨ ¬ PassThrough C et x ∧ P h x et (.ok y) → Q x y) (hstop : ∀ x ∈ xs, ∀ e, P h x et (.error e) → e.cls ≠ .stopIteration)
    (ys : List Val) (ho : o = .ok ys) : ∃ l : List (Val × Val), xs = l.map (·.1) ∧ (∀ q ∈ l, Q q.1 q.2) ∧ (k.isSet = false → ys = acc ++ l.map (·.2)) ∧
      (k.isSet = true → (∀ q ∈ l, W.hash q.2 = true) ∧ ys = (l.map (·.2)).foldl setAdd acc) := by
  induction hs with
  | nil => cases ho; exact ⟨[], rfl, by simp, by simp, fun _ => ⟨by simp, rfl⟩⟩
  | stop h1 _ he =>
    cases h1 with
    | call _ h1 => exact absurd he (hstop _ (by simp) _ h1)
  | unhashable => cases ho
  | elem => cases ho
  | cons h1 h2 _ ih =>
    rename_i x xs i acc y acc' o _
    obtain ⟨l, rfl, h4, h5, h6⟩ := ih (fun z hz => hq z (by simp [hz])) (fun z hz => hstop z (by simp [hz])) ho
    have hy : Q x y := by
      cases h1 with
      | pass h => exact hq _ (by simp) _ (Or.inl ⟨h, rfl⟩)
      | call hn h => exact hq _ (by simp) _ (Or.inr ⟨hn, h⟩)
    refine ⟨(x, y) :: l, rfl, by simpa using ⟨hy, fun a b hab => h4 (a, b) hab⟩, ?_, ?_⟩
    · intro hk
      unfold collAdd at h2
      rw [if_neg (by simp [hk])] at h2
      cases h2
      rw [h5 hk]; simp
    · intro hk
      obtain ⟨h7, h8⟩ := h6 hk
      unfold collAdd at h2
      rw [if_pos hk] at h2
      split at h2
      · rename_i hh
        cases h2
        exact ⟨by simpa using ⟨hh, fun a b hab => h7 (a, b) hab⟩, by simpa using h8⟩
      · cases h2

theorem TupSem.triples {v : Val} {t : Ty} {xs : List Val} {ts : List Ty} {i : Nat} {o : Except Exc (List Val)} (hs : TupSem W C P v t xs ts i o)
    {Q : Val → Ty → Val → Prop} (hq : ∀ h, ∀ x ∈ xs, ∀ u ∈ ts, ∀ y, pick W C u = .ok h → (C.isBasic u = true ∧ typeOf x = u ∧ y = x) ∨ P h x u (.ok y) → Q x u y)
    (hlen : ts.length ≤ xs.length) (ys : List Val) (ho : o = .ok ys) :
    ∃ (l : List (Val × Ty × Val)) (rest : List Val), xs = l.map (·.1) ++ rest ∧ ts = l.map (·.2.1) ∧ ys = l.map (·.2.2) ∧ ∀ q ∈ l, Q q.1 q.2.1 q.2.2 := by
  induction hs generalizing ys with
  | nil_left =>
    cases ho
    rename_i us _
    have : us = [] := by cases us <;> simp_all
    subst this; exact ⟨[], [], rfl, rfl, rfl, by simp⟩
  | nil_right => cases ho; exact ⟨[], _, rfl, rfl, rfl, by simp⟩
  | later => cases ho
  | elem => cases ho
  | ok h1 _ ih =>
    cases ho
    rename_i x xs u us i y ys _
    obtain ⟨l, rest, rfl, rfl, rfl, h5⟩ := ih (fun h z hz w hw => hq h z (by simp only [List.mem_cons, hz, or_true]) w (by simp only [List.mem_cons, hw, or_true])) (by simpa using hlen) _ rfl
    refine ⟨(x, u, y) :: l, rest, rfl, rfl, rfl, ?_⟩
    intro q hq'
    rcases List.mem_cons.1 hq' with rfl | hq'
    · cases h1 with
      | pass hp hb ht => exact hq _ _ (by simp) _ (by simp) _ hp (Or.inl ⟨hb, ht, rfl⟩)
      | call hp _ h => exact hq _ _ (by simp) _ (by simp) _ hp (Or.inr h)
    · exact h5 q hq'

theorem FastSem.quads {kt vt : Ty} {keyF hv : Handler} {kvs acc res : List (Val × Val)} (h : FastSem W C P kt vt keyF (some hv) kvs acc res)
    {Qk Qv : Val → Val → Prop} (hk : ∀ p ∈ kvs, ∀ y, BasicInstance C kt p.1 ∧ y = p.1 ∨ P keyF p.1 kt (.ok y) → Qk p.1 y)
    (hx : ∀ p ∈ kvs, ∀ y, BasicInstance C vt p.2 ∧ y = p.2 ∨ P hv p.2 vt (.ok y) → Qv p.2 y) :
    ∃ l : List ((Val × Val) × (Val × Val)), kvs = l.map (·.1) ∧ res = (l.map (·.2)).foldl (fun acc p => dset acc p.1 p.2) acc ∧
      ∀ q ∈ l, Qk q.1.1 q.2.1 ∧ Qv q.1.2 q.2.2 ∧ W.hash q.2.1 = true := by
  generalize hvf : some hv = vf at h
  induction h with
  | nil => exact ⟨[], rfl, rfl, by simp⟩
  | cons h1 h2 hh _ ih =>
    rename_i k x rest acc k' x' res _
    obtain ⟨l, rfl, rfl, h3⟩ := ih (fun p hp => hk p (by simp only [List.mem_cons, hp, or_true])) (fun p hp => hx p (by simp only [List.mem_cons, hp, or_true]))
    refine ⟨((k, x), (k', x')) :: l, rfl, rfl, ?_⟩
    intro q hq
    rcases List.mem_cons.1 hq with rfl | hq
    · refine ⟨?_, ?_, hh⟩
      · cases h1 with
        | pass h => exact hk (k, x) (by simp) _ (Or.inl ⟨h, rfl⟩)
        | call _ h1 h2 => cases h1; exact hk (k, x) (by simp) _ (Or.inr h2)
      · cases h2 with
        | pass h => exact hx (k, x) (by simp) _ (Or.inl ⟨h, rfl⟩)
        | call _ h1 h2 => subst hvf; cases h1; exact hx (k, x) (by simp) _ (Or.inr h2)
    · exact h3 q hq

theorem SlowSem.quads {kt vt : Ty} {kvs acc : List (Val × Val)} {o : Except Exc (List (Val × Val))} (h : SlowSem W C P kt vt kvs acc o)
    {Qk Qv : Val → Val → Prop} (hk : ∀ h, ∀ p ∈ kvs, ∀ y, pick W C kt = .ok h → P h p.1 kt (.ok y) → Qk p.1 y)
    (hx : ∀ h, ∀ p ∈ kvs, ∀ y, pick W C vt = .ok h → P h p.2 vt (.ok y) → Qv p.2 y) (res : List (Val × Val)) (ho : o = .ok res) :
    ∃ l : List ((Val × Val) × (Val × Val)), kvs = l.map (·.1) ∧ res = (l.map (·.2)).foldl (fun acc p => dset acc p.1 p.2) acc ∧
      ∀ q ∈ l, Qk q.1.1 q.2.1 ∧ Qv q.1.2 q.2.2 ∧ W.hash q.2.1 = true := by
  induction h with
  | nil => cases ho; exact ⟨[], rfl, rfl, by simp⟩
  | cons h1 h2 hh _ ih =>
    rename_i k x rest acc k' x' _ _
    obtain ⟨l, rfl, rfl, h3⟩ := ih (fun h p hp => hk h p (by simp only [List.mem_cons, hp, or_true])) (fun h p hp => hx h p (by simp only [List.mem_cons, hp, or_true])) ho
    refine ⟨((k, x), (k', x')) :: l, rfl, rfl, ?_⟩
    intro q hq
    rcases List.mem_cons.1 hq with rfl | hq
    · refine ⟨?_, ?_, hh⟩
      · cases h1 with | ok hp h => exact hk _ (k, x) (by simp) _ hp h
      · cases h2 with | ok hp h => exact hx _ (k, x) (by simp) _ hp h
    · exact h3 q hq
  | key => cases ho
  | value => cases ho
  | unhashable => cases ho

/-- The parameters collected from the data, when its keys are distinct: one for each entry under a declared key, in order. -/
theorem FieldsSem.triples {info : ObjInfo} {v : Val} {t : Ty} {kvs : List (Val × Val)} {acc : List (String × Val)}
    {o : Except Exc (List (String × Val))} (hs : FieldsSem W C P info v t kvs acc o) {Q : String → Val → Val → Prop}
    (hq : ∀ m x, (.str m, x) ∈ kvs → ∀ ft h y, aget info.hints m = some ft → pick W C ft = .ok h → P h x ft (.ok y) → Q m x y)
    (hn : (strKeys kvs).Nodup) (ha : ∀ m ∈ acc.map (·.1), m ∉ strKeys kvs) (res : List (String × Val)) (ho : o = .ok res) :
    ∃ l : List (String × Val × Val), kvs.filter (fun p => isFieldKey info.fields p.1) = l.map (fun q => (.str q.1, q.2.1)) ∧
      res = acc ++ l.map (fun q => (q.1, q.2.2)) ∧ ∀ q ∈ l, Q q.1 q.2.1 q.2.2 := by
  induction hs generalizing res with
  | nil => cases ho; exact ⟨[], rfl, by simp, by simp⟩
  | other hk _ ih =>
    rename_i k x rest acc o _
    have hsub : ∀ m, m ∈ strKeys rest → m ∈ strKeys ((k, x) :: rest) := fun m hm => by
      obtain ⟨z, hz⟩ := mem_strKeys.1 hm; exact mem_strKeys.2 ⟨z, by simp only [List.mem_cons, hz, or_true]⟩
    obtain ⟨l, h1, h2, h3⟩ := ih (fun m z hz => hq m z (by simp only [List.mem_cons, hz, or_true]))
      (by
        unfold strKeys at hn ⊢
        simp only [List.filterMap_cons] at hn
        split at hn
        · exact hn
        · exact (List.nodup_cons.1 hn).2)
      (fun m hm h => ha m hm (hsub m h)) res ho
    exact ⟨l, by rw [List.filter_cons, if_neg (by simp [hk]), h1], h2, h3⟩
  | field hm hh hp hP _ ih =>
    rename_i m x rest acc ft h y o _
    have hn' : m ∉ strKeys rest ∧ (strKeys rest).Nodup := by
      have : strKeys ((.str m, x) :: rest) = m :: strKeys rest := rfl
      rw [this] at hn; exact List.nodup_cons.1 hn
    have hacc : m ∉ acc.map (·.1) := fun hmem => ha m hmem (mem_strKeys.2 ⟨x, by simp⟩)
    have hset : aset acc m y = acc ++ [(m, y)] := by
      clear ih ha hP
      revert hacc
      generalize acc = acc
      intro hacc
      induction acc with
      | nil => rfl
      | cons p acc ih =>
        obtain ⟨n, z⟩ := p
        simp only [List.map_cons, List.mem_cons, not_or] at hacc
        unfold aset
        rw [if_neg (by simpa using fun h => hacc.1 h.symm), ih hacc.2]; rfl
    rw [hset] at ih
    obtain ⟨l, h1, h2, h3⟩ := ih (fun n z hz => hq n z (by simp only [List.mem_cons, hz, or_true])) hn'.2
      (by
        intro n hn2 hin
        simp only [List.map_append, List.map_cons, List.map_nil, List.mem_append, List.mem_singleton] at hn2
        rcases hn2 with h | rfl
        · obtain ⟨z, hz⟩ := mem_strKeys.1 hin
          exact ha n h (mem_strKeys.2 ⟨z, by simp only [List.mem_cons, hz, or_true]⟩)
        · exact hn'.1 hin) res ho
    refine ⟨(m, x, y) :: l, ?_, by rw [h2]; simp, ?_⟩
    · rw [List.filter_cons, if_pos (by simp [isFieldKey, hm]), h1]; rfl
    · intro q hq'
      rcases List.mem_cons.1 hq' with rfl | hq'
      · exact hq m x (by simp) _ _ _ hh hp hP
      · exact h3 q hq'
  | fieldErr => cases ho
  | noHandler => cases ho

theorem HintsSem.from {v : Val} {e : Nat} {us : List Ty} {es : List Exc} {o : Except Exc Val} (h : HintsSem W C P v e us es o)
    (r : Val) (ho : o = .ok r) : ∃ u ∈ us, ∃ x, LoadSem W C P v u (some (.union u)) (.ok x) ∧ enumCall W e x = some r := by
  induction h with
  | nil => cases ho
  | ok hl hm => cases ho; exact ⟨_, by simp, _, hl, hm⟩
  | noMember _ _ _ ih => obtain ⟨u, hu, h⟩ := ih ho; exact ⟨u, by simp [hu], h⟩
  | err _ _ ih => obtain ⟨u, hu, h⟩ := ih ho; exact ⟨u, by simp [hu], h⟩
end


/-! ## One step -/

theorem pick_quiet (hcc : CalmConditions W C) {t : Ty} {c : ExcClass} {m : Exc} (hp : pick W C t = .error c) (hm : m.cls ≠ .stopIteration) :
    (lookupExc m c).cls ≠ .stopIteration := by
  have := pick_error_value hcc hp; subst this
  exact hm

theorem loadExc_quiet (v : Val) (t : Ty) (a : Option Annotation) (e : Exc) : (loadExc v t a e).cls ≠ .stopIteration := by
  unfold loadExc
  split
  · rw [Exc.cls_push]; exact Exc.isTL_quiet ‹_›
  · simp [Exc.plain]

theorem KeysDistinct.within {v w : Val} (h : KeysDistinct C v) (hw : Within v w) : KeysDistinct C w := fun x kvs hx => h x kvs (hw.trans hx)

theorem DictData.within {v : Val} {kvs : List (Val × Val)} (hd : DictData C v kvs) {p : Val × Val} (hp : p ∈ kvs) : Within v p.1 ∧ Within v p.2 := by
  rcases hd with rfl | ⟨fs, rfl, _, rfl⟩
  · exact ⟨.elem .self rfl (List.mem_map.2 ⟨_, hp, rfl⟩), .value .self (Or.inl ⟨_, _, rfl, hp⟩)⟩
  · obtain ⟨q, hq, rfl⟩ := List.mem_map.1 hp
    exact ⟨.name .self hq, .value .self (Or.inr ⟨_, _, rfl, hq⟩)⟩

/-- What the values are that the parts of a load return. -/
def ConvP (W : World) (C : Config) (F' : String → Ty → Prop) (h : Handler) (v : Val) (t : Ty) (o : Except Exc Val) : Prop :=
  pick W C t = .ok h → KeysDistinct C v → (∀ r, o = .ok r → Converts W C F' v t r) ∧ ∀ e, o = .error e → e.cls ≠ .stopIteration

section
variable {F : Names} {F' : String → Ty → Prop}

theorem loadSem_quiet (hcc : CalmConditions W C) {P : Handler → Val → Ty → Except Exc Val → Prop} {x : Val} {u : Ty} {a : Option Annotation} {e : Exc}
    (h : LoadSem W C P x u a (.error e)) : e.cls ≠ .stopIteration := by
  cases h with
  | noHandler hp => exact pick_quiet hcc hp (by simp [mkExc])
  | err _ _ => exact loadExc_quiet _ _ _ _

theorem LoadSem.converts {x : Val} {u : Ty} {a : Option Annotation} {r : Val} (h : LoadSem W C (ConvP W C F') x u a (.ok r)) (hk : KeysDistinct C x) :
    Converts W C F' x u r := by
  cases h with
  | ok hp h => exact (h hp hk).1 r rfl

/-- A class is only built from arguments its constructor takes. -/
theorem construct_argument {c : Nat} {params : List (String × Val)} {r : Val} (hw : WFNames C (W.cls c).kind (W.cls c).fields) {f : Field}
    (hf : f ∈ (W.cls c).fields) (h : construct W c params = .ok r) (ha : (aget params f.name).isSome = true) : Argument (W.cls c).kind f := by
  have key : (W.cls c).kind = .dataclass ∨ (W.cls c).kind = .attrs → params.all (fun p => isInitArg (W.cls c) p.1) = true := by
    intro hk
    unfold construct at h
    dsimp only at h
    rcases hk with hk | hk <;> rw [hk] at h <;> dsimp only at h <;> split at h <;> first | assumption | cases h
  intro hk
  obtain ⟨p, hp, he⟩ := List.mem_map.1 ((aget_isSome_iff _ _).1 ha)
  have := List.all_eq_true.1 (key hk) p hp
  rw [he] at this
  unfold isInitArg at this
  obtain ⟨g, hg, hg'⟩ := List.any_eq_true.1 this
  simp only [Bool.and_eq_true, beq_iff_eq, Bool.not_eq_true', Bool.and_eq_false_iff, beq_eq_false_iff_ne] at hg'
  obtain ⟨⟨h1, h2⟩, h3⟩ := hg'
  have : g = f := nodup_map_inj hw.names hg hf h1
  subst this
  exact ⟨h2, fun hk' => h3.resolve_left (by simp [hk'])⟩

/-- What the fields get. -/
theorem fieldConv {c : Nat} {info : ObjInfo} (hi : InfoFor W C c info) (hw : WFNames C (W.cls c).kind (W.cls c).fields) {v : Val}
    {kvs kvs' : List (Val × Val)} (hm : Mangled C info.transforms v kvs kvs') (hn : (strKeys kvs).Nodup) {l : List (String × Val × Val)}
    (hl : kvs'.filter (fun p => isFieldKey info.fields p.1) = l.map (fun q => (.str q.1, q.2.1)))
    (hq : ∀ q ∈ l, ∀ ft, aget info.hints q.1 = some ft → Converts W C F' q.2.1 ft q.2.2) (hhint : ∀ q ∈ l, ∃ ft, aget info.hints q.1 = some ft)
    {f : Field} (hf : f ∈ (W.cls c).fields) (hin : (aget (l.map (fun q => (q.1, q.2.2))) f.name).isSome = true → Argument (W.cls c).kind f) :
    (∀ y, aget (l.map (fun q => (q.1, q.2.2))) f.name = some y → FieldConv W C F' c kvs f (some y)) ∧
    (aget (l.map (fun q => (q.1, q.2.2))) f.name = none → extName C (W.cls c).kind f ∉ strKeys kvs) := by
  have hdg := hm.dget hi hw hn hf
  constructor
  · intro y hy
    obtain ⟨q, hql, he⟩ := List.mem_map.1 (aget_mem hy)
    simp only [Prod.mk.injEq] at he
    obtain ⟨h1, rfl⟩ := he
    obtain ⟨ft, hft⟩ := hhint q hql
    have hmem : (.str q.1, q.2.1) ∈ kvs' := by
      have : (Val.str q.1, q.2.1) ∈ l.map (fun q => (Val.str q.1, q.2.1)) := List.mem_map.2 ⟨q, hql, rfl⟩
      rw [← hl] at this
      exact (List.mem_filter.1 this).1
    obtain ⟨g, hg, hgn, hgt⟩ := hi.hints _ _ hft
    have : g = f := nodup_map_inj hw.names hg hf (hgn.trans h1)
    subst this
    refine .loaded (hin (by rw [hy]; rfl)) (dget_mem_str ?_) hgt (hq q hql ft hft)
    rw [← hdg, ← h1]
    exact dget_of_mem_str (hm.nodup hn) hmem
  · intro hnone
    rw [← dget_none_str, ← hdg, dget_none_str]
    intro hmem
    obtain ⟨x, hx⟩ := mem_strKeys.1 hmem
    have h1 : (Val.str f.name, x) ∈ kvs'.filter (fun p => isFieldKey info.fields p.1) :=
      List.mem_filter.2 ⟨hx, by simp only [isFieldKey, hi.fields, List.contains_iff_mem]; exact List.mem_map.2 ⟨f, hf, rfl⟩⟩
    rw [hl] at h1
    obtain ⟨q, hql, he⟩ := List.mem_map.1 h1
    simp only [Prod.mk.injEq, Val.str.injEq] at he
    have : (aget (l.map (fun q => (q.1, q.2.2))) f.name).isSome = true := by
      rw [aget_isSome_iff]
      exact List.mem_map.2 ⟨(q.1, q.2.2), List.mem_map.2 ⟨q, hql, rfl⟩, he.1⟩
    rw [hnone] at this; cases this

theorem fillFields_options {params : List (String × Val)} {Q : Field → Option Val → Prop} :
    ∀ {fs : List Field} {r : List (String × Val)},
      (∀ f ∈ fs, (∀ y, aget params f.name = some y → Q f (some y)) ∧ (aget params f.name = none → (∀ d, f.default = some d → Q f (some d)) ∧
        (f.default = none → f.init = false → Q f none))) →
      fillFields params fs = .ok r → ∃ l : List (Field × Option Val), fs = l.map (·.1) ∧ (∀ q ∈ l, Q q.1 q.2) ∧
        r = l.filterMap (fun q => q.2.map (fun y => (q.1.name, y)))
  | [], r, _, h => by cases h; exact ⟨[], rfl, by simp, rfl⟩
  | f :: fs, r, hp, h => by
    simp only [fillFields] at h
    cases hf : fillField params f with
    | error e => rw [hf] at h; cases h
    | ok p =>
      rw [hf] at h; dsimp only at h
      cases hr : fillFields params fs with
      | error e => rw [hr] at h; cases h
      | ok ps =>
        rw [hr] at h; cases h
        obtain ⟨l, rfl, h2, rfl⟩ := fillFields_options (fun g hg => hp g (by simp only [List.mem_cons, hg, or_true])) hr
        obtain ⟨h3, h4⟩ := hp f (by simp)
        have : ∃ o : Option Val, Q f o ∧ p = (match o with | some y => [(f.name, y)] | none => []) := by
          unfold fillField at hf
          cases ha : aget params f.name with
          | some y => rw [ha] at hf; cases hf; exact ⟨some y, h3 y ha, rfl⟩
          | none =>
            rw [ha] at hf; dsimp only at hf
            cases hdf : f.default with
            | some d => rw [hdf] at hf; cases hf; exact ⟨some d, (h4 ha).1 d hdf, rfl⟩
            | none =>
              rw [hdf] at hf; dsimp only at hf
              split at hf
              · cases hf
              · rename_i hini; cases hf; exact ⟨none, (h4 ha).2 hdf (by simpa using hini), rfl⟩
        obtain ⟨o, h5, rfl⟩ := this
        refine ⟨(f, o) :: l, rfl, ?_, ?_⟩
        · intro q hq
          rcases List.mem_cons.1 hq with rfl | hq
          · exact h5
          · exact h2 q hq
        · cases o <;> simp

theorem Mangled.within {tr : List (String × String)} {v : Val} {kvs kvs' : List (Val × Val)} (hm : Mangled C tr v kvs kvs') {p : Val × Val} (hp : p ∈ kvs') :
    Within v p.2 := by
  rcases hm.2 with ⟨_, rfl⟩ | ⟨_, _, h2⟩
  · exact (hm.1.within hp).2
  · rcases mangleLoop_values _ _ _ _ _ h2 p hp with ⟨q, hq, he⟩ | ⟨q, hq, _⟩
    · rw [← he]; exact (hm.1.within hq).2
    · cases hq

theorem FieldsSem.quiet (hcc : CalmConditions W C) {info : ObjInfo} {v0 v : Val} {t : Ty} {kvs : List (Val × Val)} {acc : List (String × Val)} {o : Except Exc (List (String × Val))}
    (h : FieldsSem W C (ConvP W C F') info v0 t kvs acc o) (hk : KeysDistinct C v) (hw : ∀ p ∈ kvs, Within v p.2) (e : Exc) (ho : o = .error e) : e.cls ≠ .stopIteration := by
  induction h with
  | nil => cases ho
  | other _ _ ih => exact ih (fun p hp => hw p (by simp only [List.mem_cons, hp, or_true])) ho
  | field _ _ _ _ _ ih => exact ih (fun p hp => hw p (by simp only [List.mem_cons, hp, or_true])) ho
  | fieldErr _ _ hp hP =>
    rename_i m x rest acc ft h e' _ _
    cases ho
    have := (hP hp (hk.within (hw (.str m, x) (by simp)))).2 _ rfl
    split
    · rw [Exc.cls_push]; exact this
    · exact this
  | noHandler _ _ hp => cases ho; exact pick_quiet hcc hp (by simp [mkExc])

theorem fields_of_names {c : Nat} {l : List (String × Val × Val)} (h : ∀ q ∈ l, ∃ f ∈ (W.cls c).fields, f.name = q.1 ∧ Converts W C F' q.2.1 f.ty q.2.2) :
    ∃ l' : List (Field × Val × Val), l = l'.map (fun q => (q.1.name, q.2)) ∧ (∀ q ∈ l', q.1 ∈ (W.cls c).fields) ∧ ∀ q ∈ l', Converts W C F' q.2.1 q.1.ty q.2.2 := by
  induction l with
  | nil => exact ⟨[], rfl, by simp, by simp⟩
  | cons q l ih =>
    obtain ⟨l', rfl, h2, h3⟩ := ih (fun p hp => h p (by simp only [List.mem_cons, hp, or_true]))
    obtain ⟨f, hf, h4, h5⟩ := h q (by simp)
    refine ⟨(f, q.2) :: l', by rw [List.map_cons, h4], ?_, ?_⟩
    · intro p hp; rcases List.mem_cons.1 hp with rfl | hp
      · exact hf
      · exact h2 p hp
    · intro p hp; rcases List.mem_cons.1 hp with rfl | hp
      · exact h5
      · exact h3 p hp

theorem obj_converts (hcc : CalmConditions W C) (hW : W.NeverStops) {c : Nat} (hw : WFNames C (W.cls c).kind (W.cls c).fields)
    (hatt : (W.cls c).kind = .attrs → ∀ f ∈ (W.cls c).fields, ∃ t, FieldTy .attrs f t) {v : Val} {o : Except Exc Val} (hk : KeysDistinct C v)
    (h : ObjSem W C (ConvP W C F') v c o) : (∀ r, o = .ok r → Converts W C F' v (.obj c) r) ∧ ∀ e, o = .error e → e.cls ≠ .stopIteration := by
  cases h with
  | stop hk' he => obtain ⟨hints, hh⟩ := attrHints_total _ (hatt hk'); rw [hh] at he; cases he
  | mangle _ _ he => obtain ⟨cl, m, htl, rfl⟩ := he; refine ⟨by simp, ?_⟩; rintro e ⟨⟩; exact Exc.isTL_quiet htl
  | noDict => refine ⟨by simp, ?_⟩; rintro e ⟨⟩; simp [mkExc]
  | missing => refine ⟨by simp, ?_⟩; rintro e ⟨⟩; simp [mkExc]
  | extra => refine ⟨by simp, ?_⟩; rintro e ⟨⟩; simp [mkExc]
  | extraKey => refine ⟨by simp, ?_⟩; rintro e ⟨⟩; simp [Exc.plain]
  | field hi hm hnec hf => exact ⟨by simp, fun e he => by cases he; exact hf.quiet hcc hk (fun p hp => hm.within hp) _ rfl⟩
  | @construct info kvs kvs' params x hi hm hnec hf hc =>
    refine ⟨by simp, ?_⟩; rintro e ⟨⟩
    unfold constructExc
    split
    · simp [mkExc0]
    · split
      · simp [mkExc0]
      · intro he
        have : x = .stopIteration := he
        subst this; exact construct_quiet hW hc
  | @ok info kvs kvs' params r hi hm hnec hfx hf hcon =>
    refine ⟨?_, by simp⟩; rintro _ ⟨⟩
    have hkn : C.failonextra = true → ∀ p ∈ kvs, KnownKey W C c p.1 := by
      intro hfe p hp
      apply Classical.byContradiction
      intro hno
      obtain ⟨q, hq, hq'⟩ := hm.extra hw hi hfe hno hp
      rw [hfx hfe q hq] at hq'; cases hq'
    have hn := hk v kvs .self hm.1
    obtain ⟨l, h1, h2, h3⟩ := hf.triples (Q := fun m x y => ∃ ft, aget info.hints m = some ft ∧ Converts W C F' x ft y)
      (fun m x hx ft h y hh hp hP => ⟨ft, hh, (hP hp (hk.within (hm.within hx))).1 y rfl⟩) (hm.nodup hn) (by simp) _ rfl
    simp only [List.nil_append] at h2
    by_cases hkd : (W.cls c).kind = .typeddict
    · have htr : info.transforms = [] := by
        rw [hi.transforms, hkd]; exact transformsOf_none (ren := renamed C .typeddict) _ _ (fun f _ => rfl)
      have hkk : kvs' = kvs := by
        rcases hm.2 with ⟨_, h⟩ | ⟨_, h, _⟩
        · exact h
        · exact absurd htr h
      subst hkk
      unfold construct at hcon
      dsimp only at hcon; rw [hkd] at hcon; dsimp only at hcon
      cases hcon
      obtain ⟨l', rfl, h4, h5⟩ := fields_of_names (c := c) (l := l) (F' := F') (by
        intro q hq
        obtain ⟨ft, h6, h7⟩ := h3 q hq
        obtain ⟨f, hf', h8, h9⟩ := hi.hints _ _ h6
        cases h9 with
        | declared _ => exact ⟨f, hf', h8, h7⟩
        | converter _ h => rw [hkd] at h; cases h
        | untyped _ h => rw [hkd] at h; cases h
        | manyHints _ h => rw [hkd] at h; cases h)
      subst h2
      rw [hi.fields] at h1
      have := Converts.typeddict (F := F') (v := v) (l := l') hkd hm.1 hkn (by rw [h1, List.map_map]; rfl) h4 h5 (by
        intro f hf' hr hnr
        have h10 : f.name ∈ info.necessary := hi.nec f hf' (by rw [hkd]; exact ⟨hr, hnr⟩) (by rw [hkd]; simp)
        obtain ⟨x, hx⟩ := mem_strKeys.1 (hnec _ h10)
        have : (Val.str f.name, x) ∈ kvs'.filter (fun p => isFieldKey ((W.cls c).fields.map (·.name)) p.1) :=
          List.mem_filter.2 ⟨hx, by simp only [isFieldKey, List.contains_iff_mem]; exact List.mem_map.2 ⟨f, hf', rfl⟩⟩
        rw [h1] at this
        obtain ⟨q, hq, he⟩ := List.mem_map.1 this
        obtain ⟨q', hq', rfl⟩ := List.mem_map.1 hq
        simp only [Prod.mk.injEq, Val.str.injEq] at he
        exact List.mem_map.2 ⟨q', hq', he.1⟩)
      simpa [List.map_map, Function.comp_def] using this
    · obtain ⟨fs, hfill, hb⟩ := construct_built hkd hcon
      subst h2
      have hfc : ∀ f ∈ (W.cls c).fields, _ := fun f hf' => fieldConv (F' := F') hi hw hm hn h1
        (fun q hq ft hft => by obtain ⟨ft', h6, h7⟩ := h3 q hq; rw [hft] at h6; cases h6; exact h7)
        (fun q hq => by obtain ⟨ft', h6, h7⟩ := h3 q hq; exact ⟨ft', h6⟩) hf' (construct_argument hw hf' hcon)
      obtain ⟨l', h4, h5, h6⟩ := fillFields_options (Q := FieldConv W C F' c kvs) (fun f hf' => ⟨(hfc f hf').1, fun hnone =>
        ⟨fun d hdf => .default ((hfc f hf').2 hnone) hdf, fun hdf hini => .unset (fun hnt => (hfc f hf').2 hnone (by
          have hmem : f.name ∈ strKeys kvs' := hnec _ (hi.nec f hf' (by rw [hnt]; exact hdf) (by rw [hnt]; simp))
          rw [← Classical.not_not (a := _ ∈ _), ← dget_none_str, ← hm.dget hi hw hn hf', dget_none_str]
          exact fun h => h hmem)) ((hfc f hf').2 hnone) hdf hini⟩⟩) hfill
      subst h6
      exact .obj hkd hm.1 hkn h4 h5 hb

theorem IterSem.quiet {P : Handler → Val → Ty → Except Exc Val → Prop} {h : Handler} {k : SeqKind} {et : Ty} {v : Val} {t : Ty} {xs : List Val} {i : Nat}
    {acc : List Val} {o : Except Exc (List Val)} (hs : IterSem W C P h k et v t xs i acc o) (e : Exc) (ho : o = .error e) : e.cls ≠ .stopIteration := by
  induction hs with
  | nil => cases ho
  | cons _ _ _ ih => exact ih ho
  | unhashable => cases ho; exact elemError_quiet _ _ _ _
  | stop => cases ho
  | elem => cases ho; exact elemError_quiet _ _ _ _

theorem TupSem.quiet {P : Handler → Val → Ty → Except Exc Val → Prop} {v : Val} {t : Ty} {xs : List Val} {ts : List Ty} {i : Nat}
    {o : Except Exc (List Val)} (hs : TupSem W C P v t xs ts i o) (e : Exc) (ho : o = .error e) : e.cls ≠ .stopIteration := by
  induction hs with
  | nil_left => cases ho
  | nil_right => cases ho
  | ok => cases ho
  | later _ _ ih => cases ho; exact ih rfl
  | elem => cases ho; exact elemError_quiet _ _ _ _

theorem SlowSem.quiet (hcc : CalmConditions W C) {P : Handler → Val → Ty → Except Exc Val → Prop} {kt vt : Ty} {kvs acc : List (Val × Val)} {o : Except Exc (List (Val × Val))}
    (h : SlowSem W C P kt vt kvs acc o) (e : Exc) (ho : o = .error e) : e.cls ≠ .stopIteration := by
  induction h with
  | nil => cases ho
  | cons _ _ _ _ ih => exact ih ho
  | key h => cases ho; exact loadSem_quiet hcc h
  | value _ h => cases ho; exact loadSem_quiet hcc h
  | unhashable => cases ho; simp [Exc.plain]

theorem TrySem.quiet (hcc : CalmConditions W C) {v : Val} {t : Ty} {us : List Ty} {c : Nat} {r : Val} {es : List Exc} {o : Except Exc (Nat × Val × List Exc)}
    (h : TrySem W C (ConvP W C F') v t us c r es o) (hk : KeysDistinct C v) (e : Exc) (ho : o = .error e) : e.cls ≠ .stopIteration := by
  induction h with
  | nil => cases ho
  | win => cases ho
  | count _ _ _ ih => exact ih ho
  | refuse _ _ _ ih => exact ih ho
  | crash hc _ =>
    cases ho
    cases hc with
    | noHandler hp => exact pick_quiet hcc hp (by simp [mkExc])
    | call hp h => exact (h hp hk).2 _ rfl

theorem HintsSem.quiet {P : Handler → Val → Ty → Except Exc Val → Prop} {v : Val} {e : Nat} {us : List Ty} {es : List Exc} {o : Except Exc Val}
    (h : HintsSem W C P v e us es o) (ex : Exc) (ho : o = .error ex) : ex.cls ≠ .stopIteration := by
  induction h with
  | nil => cases ho; simp [mkExcSubs]
  | ok => cases ho
  | noMember _ _ _ ih => exact ih ho
  | err _ _ ih => exact ih ho

/-- What one step of the loader returns comes from the data. -/
theorem conversion_step (hcc : CalmConditions W C) (hW : W.NeverStops) {G : Ty → Prop} (hF : ∀ n u, G (.fref n) → F n u → F' n u)
    (hus : ∀ t, G t → C.Usual W t) (hsafe : ∀ k v, G (.dict k v) → C.isBasic v = false ∨ pick W C k = pick W C v) (hw : ∀ c, G (.obj c) → WFNames C (W.cls c).kind (W.cls c).fields)
    (hatt : ∀ c, G (.obj c) → (W.cls c).kind = .attrs → ∀ f ∈ (W.cls c).fields, ∃ t, FieldTy .attrs f t)
    (h : Handler) (v : Val) (t : Ty) (o : Except Exc Val) (hg : G t) (hs : StepSem W C F (ConvP W C F') h v t o) : ConvP W C F' h v t o := by
  intro hp hk
  have hpass : ∀ {t x}, BasicInstance C t x → ConvertsElem W C F' x t x := by
    rintro t x ⟨p, rfl, hb, h⟩; exact .keep hb h
  have hexact : ∀ {u x}, C.isBasic u = true → typeOf x = u → Converts W C F' x u x := by
    intro u x hb ht
    cases u <;> simp [Config.isBasic] at hb
    exact .exact (.inl hb) ht
  cases hs with
  | leaf hleaf h =>
    exact ⟨fun r ho => by subst ho; exact leaf_converts (hus _ hg) hp hleaf h, fun e ho => by subst ho; exact leaf_quiet hW (hus _ hg) hp hleaf h⟩
  | custom hi hsc => exact absurd (picked_of_stock ((hus _ hg).symm.trans hp)) Picked.not_custom
  | mismatch => exact ⟨by simp, fun e he => by cases he; simp [Exc.plain]⟩
  | iterDict => exact ⟨by simp, fun e he => by cases he; simp [mkExc]⟩
  | iterLookup _ hp' => exact ⟨by simp, fun e he => by cases he; exact pick_quiet hcc hp' (by simp [mkExc])⟩
  | iterNot => exact ⟨by simp, fun e he => by cases he; simp [mkExc]⟩
  | iterErr _ _ _ _ hit => exact ⟨by simp, fun e he => by cases he; exact hit.quiet _ rfl⟩
  | @iter _ _ k k' et h' xs ys hkd hnd hx hp' hit =>
    refine ⟨fun r ho => ?_, by simp⟩
    cases ho
    have := picked_coll (picked_of_stock ((hus _ hg).symm.trans hp)) hkd; subst this
    obtain ⟨l, rfl, h2, h3, h4⟩ := hit.pairs (Q := fun x y => ConvertsItem W C F' x et y) (by
      intro x hxm y hy
      rcases hy with ⟨hpt, rfl⟩ | ⟨hn, hP⟩
      · rcases hpt with h | ⟨ts, rfl, hb, h⟩
        · exact .keep h
        · exact .conv (fun ⟨p, hp, _⟩ => by cases hp) (.union h (fun _ => rfl) (hexact (hb _ h) rfl))
      · exact .conv (fun h => hn (Or.inl h)) ((hP hp' (hk.within (.elem .self hx hxm))).1 y rfl))
      (fun x hxm e hP => (hP hp' (hk.within (.elem .self hx hxm))).2 e rfl) _ rfl
    cases hset : k'.isSet with
    | false => rw [h3 hset, List.nil_append]; exact .coll hset hnd hx h2
    | true =>
      obtain ⟨h5, rfl⟩ := h4 hset
      exact .set hset hnd hx h2 h5
  | tupDict => exact ⟨by simp, fun e he => by cases he; simp [mkExc]⟩
  | tupLen => exact ⟨by simp, fun e he => by cases he; simp [Exc.plain]⟩
  | tupSize => exact ⟨by simp, fun e he => by cases he; simp [mkExc]⟩
  | tupErr _ _ _ ht => exact ⟨by simp, fun e he => by cases he; exact ht.quiet _ rfl⟩
  | tup hnd hx hlen hfe htup =>
    refine ⟨fun r ho => ?_, by simp⟩
    cases ho
    obtain ⟨l, rest, rfl, rfl, rfl, h4⟩ := htup.triples (Q := fun x u y => Converts W C F' x u y) (by
      intro h x hxm u _ y hp' hy
      rcases hy with ⟨hb, ht, rfl⟩ | hP
      · exact hexact hb ht
      · exact (hP hp' (hk.within (.elem .self hx hxm))).1 y rfl) hlen _ rfl
    refine .tuple hnd hx (fun hc => ?_) h4
    have := hfe hc
    simpa using this
  | dictLookup _ hp' => exact ⟨by simp, fun e he => by cases he; exact pick_quiet hcc hp' (by simp [mkExc])⟩
  | dictNot => exact ⟨by simp, fun e he => by cases he; simp [mkExc]⟩
  | @dictFast _ kt vt kvs hk' hv keyF valF res hdata hpk' hpv hcase hf =>
    refine ⟨fun r ho => ?_, by simp⟩
    cases ho
    have hf' := fast_right (hsafe _ _ hg) hpk' hpv hcase hf
    obtain ⟨l, rfl, rfl, h3⟩ := hf'.quads (Qk := fun x y => ConvertsElem W C F' x kt y) (Qv := fun x y => ConvertsElem W C F' x vt y)
      (by
        rintro p hpm y (⟨hb, rfl⟩ | hP)
        · exact hpass hb
        · exact .conv ((hP hpk' (hk.within (hdata.within hpm).1)).1 y rfl))
      (by
        rintro p hpm y (⟨hb, rfl⟩ | hP)
        · exact hpass hb
        · exact .conv ((hP hpv (hk.within (hdata.within hpm).2)).1 y rfl))
    exact .dict hdata (fun q hq => (h3 q hq).1) (fun q hq => (h3 q hq).2.1) (fun q hq => (h3 q hq).2.2)
  | @dictSlow _ kt vt kvs hk' hv res hdata hpk' hpv hf =>
    refine ⟨fun r ho => ?_, by simp⟩
    cases ho
    obtain ⟨l, rfl, rfl, h3⟩ := hf.quads (Qk := fun x y => ConvertsElem W C F' x kt y) (Qv := fun x y => ConvertsElem W C F' x vt y)
      (fun h p hpm y hp' hP => .conv ((hP hp' (hk.within (hdata.within hpm).1)).1 y rfl))
      (fun h p hpm y hp' hP => .conv ((hP hp' (hk.within (hdata.within hpm).2)).1 y rfl)) _ rfl
    exact .dict hdata (fun q hq => (h3 q hq).1) (fun q hq => (h3 q hq).2.1) (fun q hq => (h3 q hq).2.2)
  | dictErr _ _ _ hf =>
    refine ⟨by simp, fun e he => ?_⟩
    cases he
    split
    · simp [mkExc]
    · exact hf.quiet hcc _ rfl
  | obj hob => exact obj_converts hcc hW (hw _ hg) (hatt _ hg) hk hob
  | unionBasic hb =>
    refine ⟨fun r ho => ?_, by simp⟩
    cases ho
    exact .union hb.2 (fun _ => rfl) (hexact hb.1 rfl)
  | unionTag => exact ⟨by simp, fun e he => by cases he; simp [Exc.plain]⟩
  | unionCrash _ _ ht => exact ⟨by simp, fun e he => by cases he; exact ht.quiet hcc hk _ rfl⟩
  | unionOne hne hord htry =>
    refine ⟨fun r ho => ?_, by simp⟩
    cases ho
    obtain ⟨u, hu, hcall⟩ := (htry.winner _ _ _ rfl).resolve_left (fun h => by cases h.1)
    refine .union (hord.perm.mem_iff.1 hu) (fun h => absurd h hne) ?_
    cases hcall with
    | call hp' hP => exact (hP hp' hk).1 _ rfl
  | unionNone => exact ⟨by simp, fun e he => by cases he; simp [mkExcSubs]⟩
  | unionMany => exact ⟨by simp, fun e he => by cases he; simp [mkExcSubs]⟩
  | enumMember hm => exact ⟨fun r ho => by cases ho; exact .enum (enumCall_first hm), by simp⟩
  | enumHints hn hh =>
    refine ⟨fun r ho => ?_, fun e he => hh.quiet _ he⟩
    obtain ⟨u, hu, x, h1, h2⟩ := hh.from r ho
    exact .hint (fun m' hm => by rw [hm.call] at hn; cases hn) hu (h1.converts hk) (enumCall_first h2)
  | frefDisabled => exact ⟨by simp, fun e he => by cases he; simp [mkExc]⟩
  | frefUnknown => exact ⟨by simp, fun e he => by cases he; simp [mkExc]⟩
  | fref hf _ hl' =>
    exact ⟨fun r ho => by subst ho; exact .fref (hF _ _ hg hf) (hl'.converts hk), fun e he => by subst he; exact loadSem_quiet hcc hl'⟩
  | newtype hl' =>
    exact ⟨fun r ho => by subst ho; exact .newtype (hl'.converts hk), fun e he => by subst he; exact loadSem_quiet hcc hl'⟩
end

end TL
