import Verif.Lemmas.RefRun
import Verif.Props.Dump
/-!
# Running the reference loader on the data of an object
-/

namespace TL

variable {W : World} {C : Config} {Γ : Env}

theorem pyEq_str_ne {a b : String} (h : a ≠ b) : pyEq (.str a) (.str b) = false := by
  cases hh : pyEq (.str a) (.str b) with
  | false => rfl
  | true => exact absurd (Val.str.inj ((pyEq_str_right _ _).1 hh)) h

theorem distinct_str {l : List String} (h : l.Nodup) : Distinct (l.map .str) := by
  unfold Distinct
  rw [List.pairwise_map]
  exact h.imp (fun hab => pyEq_str_ne hab)

theorem aset_new {α : Type} {l : List (String × α)} {n : String} {x : α} (h : n ∉ l.map (·.1)) : aset l n x = l ++ [(n, x)] := by
  induction l with
  | nil => rfl
  | cons p l ih =>
    obtain ⟨m, y⟩ := p
    simp only [List.map_cons, List.mem_cons, not_or] at h
    simp only [aset]
    rw [if_neg (fun he => h.1 he.symm), ih h.2]; rfl

/-- Renaming the data of some fields. -/
theorem mangle_fields {k : ObjKind} {fs : List Field} (hw : WFNames C k fs) (foe : Bool) (l : List (Field × Val)) : ∀ l0 : List (Field × Val),
    (∀ q ∈ l, q.1 ∈ fs) → ((l0 ++ l).map (fun q => q.1.name)).Nodup →
    mangleLoop (transformsOf (renamed C k) fs []) foe (l.map (fun q => (.str (extName C k q.1), q.2))) (l0.map (fun q => (.str q.1.name, q.2)))
      = .ok ((l0 ++ l).map (fun q => (.str q.1.name, q.2))) := by
  induction l with
  | nil => intro l0 _ _; simp [mangleLoop]
  | cons q l ih =>
    intro l0 hs hn
    obtain ⟨f, x⟩ := q
    have hf := hs (f, x) (by simp)
    have hnew : dset (l0.map (fun q => (Val.str q.1.name, q.2))) (.str f.name) x = (l0 ++ [(f, x)]).map (fun q => (Val.str q.1.name, q.2)) := by
      rw [dset_new, List.map_append]; rfl
      intro p hp
      obtain ⟨q, hq, rfl⟩ := List.mem_map.1 hp
      refine pyEq_str_ne (fun he => ?_)
      rw [List.map_append, List.nodup_append] at hn
      exact hn.2.2 _ (List.mem_map.2 ⟨q, hq, rfl⟩) _ (List.mem_map.2 ⟨(f, x), by simp, rfl⟩) he
    have := ih (l0 ++ [(f, x)]) (fun q hq => hs q (by simp [hq])) (by simpa using hn)
    rw [List.map_cons, mangleLoop_str, keyFate_ext hw hf]
    cases hr : renamed C k f with
    | some m =>
      simp only [Option.isSome_some, if_true]
      rw [hnew, this]; simp
    | none =>
      simp only [Option.isSome_none, Bool.false_eq_true, if_false]
      rw [show extName C k f = f.name by simp [extName, hr], hnew, this]; simp

/-- Renaming, as a whole. -/
theorem mangleOrRaise_fields {c : Nat} {info : ObjInfo} (hi : InfoFor W C c info) (hw : WFNames C (W.cls c).kind (W.cls c).fields) (l : List (Field × Val))
    (hs : ∀ q ∈ l, q.1 ∈ (W.cls c).fields) (hn : (l.map (fun q => q.1.name)).Nodup) :
    ofL (mangleOrRaise C info.transforms (.dict (l.map (fun q => (.str (extName C (W.cls c).kind q.1), q.2)))) (.obj c)) () =
      .ok (.dict (l.map (fun q => (.str q.1.name, q.2)))) () := by
  have : mangle_names info.transforms (.dict (l.map (fun q => (Val.str (extName C (W.cls c).kind q.1), q.2)))) C.failonextra =
      .ok (.dict (l.map (fun q => (Val.str q.1.name, q.2)))) := by
    unfold mangle_names
    split
    · rename_i he
      have he : info.transforms = [] := by simpa using he
      congr 2
      refine List.map_congr_left (fun q hq => ?_)
      have : renamed C (W.cls c).kind q.1 = none := by
        cases hr : renamed C (W.cls c).kind q.1 with
        | none => rfl
        | some n =>
          have := (transforms_aget hw n q.1.name).2 ⟨q.1, hs q hq, hr, rfl⟩
          rw [← hi.transforms, he] at this; cases this
      simp [extName, this]
    · simp only [items, hi.transforms]
      have := mangle_fields hw C.failonextra l [] hs (by simpa using hn)
      simp only [List.map_nil, List.nil_append] at this
      rw [this]; rfl
  unfold ofL mangleOrRaise
  rw [this]; rfl

/-- The data of the fields, one after the other. -/
theorem Ok.objFields {info : ObjInfo} {v : Val} {t : Ty} (l : List (String × Val × Val)) : ∀ l0 : List (String × Val × Val),
    (∀ q ∈ l, q.1 ∈ info.fields) → (∀ q ∈ l, ∃ ft, aget info.hints q.1 = some ft ∧ Yields W C Γ q.2.1 ft q.2.2) →
    ((l0 ++ l).map (·.1)).Nodup →
    Ok (fun n => Ref.objFields W C (Ref.run W C Γ n) info v t (l.map (fun q => (.str q.1, q.2.1))) (l0.map (fun q => (q.1, q.2.2))))
      ((l0 ++ l).map (fun q => (q.1, q.2.2))) := by
  induction l with
  | nil => intro l0 _ _ _; simp only [List.map_nil, List.append_nil, Ref.objFields]; exact Ok.pure _
  | cons q l ih =>
    intro l0 hf hy hn
    obtain ⟨m, x, y⟩ := q
    obtain ⟨ft, ha, h, hp, ho⟩ := hy (m, x, y) (by simp)
    dsimp only at ha ho
    have hc : info.fields.contains m = true := by rw [List.contains_iff_mem]; exact hf (m, x, y) (by simp)
    have hnew : aset (l0.map (fun q => (q.1, q.2.2))) m y = (l0 ++ [(m, x, y)]).map (fun q => (q.1, q.2.2)) := by
      rw [aset_new, List.map_append]; rfl
      intro hm
      obtain ⟨q, hq, rfl⟩ := List.mem_map.1 hm
      obtain ⟨q', hq', rfl⟩ := List.mem_map.1 hq
      rw [List.map_append, List.nodup_append] at hn
      exact hn.2.2 _ (List.mem_map.2 ⟨q', hq', rfl⟩) _ (List.mem_map.2 ⟨_, List.mem_cons_self, rfl⟩) rfl
    have := ih (l0 ++ [(m, x, y)]) (fun q hq => hf q (by simp [hq])) (fun q hq => hy q (by simp [hq])) (by simpa using hn)
    simp only [List.map_cons, Ref.objFields, hc, if_true, ha]
    refine Ok.bind (Ok.resolve hp) (Ok.bind (Ok.rescue ho) ?_)
    rw [hnew]
    simpa using this

/-- An object whose data are exactly some of its fields. -/
theorem Ok.objloader {info : ObjInfo} {c : Nat} {r : Val} (l : List (String × Val × Val))
    (hf : ∀ q ∈ l, q.1 ∈ info.fields) (hy : ∀ q ∈ l, ∃ ft, aget info.hints q.1 = some ft ∧ Yields W C Γ q.2.1 ft q.2.2)
    (hn : (l.map (·.1)).Nodup) (hnec : ∀ n ∈ info.necessary, n ∈ l.map (·.1))
    (hc : construct W c (l.map (fun q => (q.1, q.2.2))) = .ok r) :
    Ok (fun n => Ref.objloader W C (Ref.run W C Γ n) info (.dict (l.map (fun q => (.str q.1, q.2.1)))) c) r := by
  have h1 : (info.necessary.all (fun n => dhas (l.map (fun q => (Val.str q.1, q.2.1))) (.str n))) = true := by
    rw [List.all_eq_true]
    intro n hm
    rw [dhas_str, mem_strKeys]
    obtain ⟨q, hq, rfl⟩ := List.mem_map.1 (hnec n hm)
    exact ⟨q.2.1, List.mem_map.2 ⟨q, hq, rfl⟩⟩
  have h2 : extraKeys info (l.map (fun q => (Val.str q.1, q.2.1))) = [] := by
    unfold extraKeys
    rw [List.filter_eq_nil_iff]
    intro k hk
    obtain ⟨p, hp, rfl⟩ := List.mem_map.1 hk
    obtain ⟨q, hq, rfl⟩ := List.mem_map.1 hp
    have := hf q hq
    simp [isFieldKey, this]
  simp only [Ref.objloader, objItems, h1, h2, Bool.not_true, Bool.false_eq_true, if_false, List.isEmpty_nil, Bool.and_false]
  have := Ok.objFields (W := W) (C := C) (Γ := Γ) (info := info) (v := .dict (l.map (fun q => (.str q.1, q.2.1)))) (t := .obj c) l [] hf hy (by simpa using hn)
  simp only [List.map_nil, List.nil_append] at this
  refine Ok.bind this ?_
  rw [hc]; exact Ok.pure _

/-- The new instance: the arguments where there are some, the defaults elsewhere. -/
theorem fillFields_ok {params : List (String × Val)} (l : List (Field × Val))
    (h : ∀ q ∈ l, aget params q.1.name = some q.2 ∨ (aget params q.1.name = none ∧ q.1.default = some q.2)) :
    fillFields params (l.map (·.1)) = .ok (l.map (fun q => (q.1.name, q.2))) := by
  induction l with
  | nil => rfl
  | cons q l ih =>
    obtain ⟨f, x⟩ := q
    have : fillField params f = .ok [(f.name, x)] := by
      unfold fillField
      rcases h (f, x) (by simp) with h | ⟨h, h'⟩
      · rw [h]
      · rw [h, h']
    simp only [List.map_cons, fillFields, this, ih (fun q hq => h q (by simp [hq]))]; rfl

end TL
