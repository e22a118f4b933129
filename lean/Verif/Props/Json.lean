import Verif.Lemmas.RefRun
import Verif.Lemmas.DumpInv
/-!
# C48: the recursive JSON type is the identity
-/

namespace TL

variable {W : World} {C : Config}

/-! ## Specification -/

/-- JSON documents: numbers, strings, booleans, null, arrays, and objects with different keys. -/
inductive Json : Val → Prop
  | null : Json .none
  | bool (b : Bool) : Json (.bool b)
  | int (i : Int) : Json (.int i)
  | float (f : PF) : Json (.float f)
  | str (s : String) : Json (.str s)
  | array {xs : List Val} : (∀ x ∈ xs, Json x) → Json (.list xs)
  | object {kvs : List (Val × Val)} : (∀ p ∈ kvs, ∃ n, p.1 = .str n) → (kvs.map (·.1)).Nodup → (∀ p ∈ kvs, Json p.2) → Json (.dict kvs)

/-- `Union[int, float, str, bool, None, List['n'], Dict[str, 'n']]` -/
def jsonTy (n : String) : Ty :=
  .union [.prim .int, .prim .float, .prim .str, .prim .bool, .prim .none, .coll .list (.fref n), .dict (.prim .str) (.fref n)]

/-! ## Proof -/

/-- The types met. -/
theorem uses_json {n : String} {f : String → Option Ty} (hf : f n = some (jsonTy n)) {t u : Ty} (ht : t = .fref n ∨ t = jsonTy n)
    (h : Uses W (some f) t u) :
    u = .fref n ∨ u = jsonTy n ∨ (∃ p, u = .prim p) ∨ u = .coll .list (.fref n) ∨ u = .dict (.prim .str) (.fref n) := by
  induction h with
  | self => rcases ht with rfl | rfl <;> simp
  | coll _ ih => simp [jsonTy] at ih; simp [ih]
  | tuple _ _ ih => simp [jsonTy] at ih
  | dictKey _ ih => simp [jsonTy] at ih; simp [ih]
  | dictVal _ ih => simp [jsonTy] at ih; simp [ih]
  | newtype _ ih => simp [jsonTy] at ih
  | enum _ _ ih => simp [jsonTy] at ih
  | union _ hu ih =>
    simp [jsonTy] at ih; subst ih
    simp at hu
    rcases hu with rfl | rfl | rfl | rfl | rfl | rfl | rfl <;> simp
  | field _ _ _ ih => simp [jsonTy] at ih
  | fref g _ hg hn ih =>
    simp [jsonTy] at ih
    subst ih
    cases hg
    rw [hf] at hn
    cases hn
    simp

theorem steady_json {n : String} {f : String → Option Ty} (hf : f n = some (jsonTy n)) {t : Ty} (ht : t = .fref n ∨ t = jsonTy n) (v : Val) :
    Steady W C (some f) v t where
  unnamed g m hg hu hm := by
    cases hg
    have := uses_json hf ht hu
    simp [jsonTy] at this
    subst this
    rw [hf] at hm; cases hm
  dictSafe k w hu := by
    have := uses_json hf ht hu
    simp [jsonTy] at this
    obtain ⟨rfl, rfl⟩ := this
    exact Or.inl rfl
  dictColl k w hu := by
    have := uses_json hf ht hu
    simp [jsonTy] at this
    obtain ⟨rfl, rfl⟩ := this
    exact Or.inr (Or.inl (by simp))
  intKeys d kvs w hu := by
    have := uses_json hf ht hu.uses
    simp [jsonTy] at this
  intVals d kvs w hu := by
    have := uses_json hf ht hu.uses
    simp [jsonTy] at this

theorem zip2_same {α : Type} {R : α → α → Prop} : ∀ {l : List α}, (∀ x ∈ l, R x x) → Zip2 R l l
  | [], _ => .nil
  | x :: l, h => .cons (h x (by simp)) (zip2_same (fun y hy => h y (by simp [hy])))

/-- Strings are equal in Python if they are the same. -/
theorem distinct_strs {l : List Val} (hs : ∀ x ∈ l, ∃ n, x = .str n) (hn : l.Nodup) : Distinct l := by
  unfold Distinct
  induction l with
  | nil => exact List.Pairwise.nil
  | cons a l ih =>
    rw [List.nodup_cons] at hn
    refine List.Pairwise.cons (fun b hb => ?_) (ih (fun x hx => hs x (by simp [hx])) hn.2)
    obtain ⟨n, rfl⟩ := hs a (by simp)
    obtain ⟨m, rfl⟩ := hs b (by simp [hb])
    have : n ≠ m := by rintro rfl; exact hn.1 hb
    simp [pyEq, this]

theorem yields_json (hd : C.Default) (hb : ∀ p ∈ [Prim.int, .float, .str, .bool, .none], p ∈ C.basictypes) (hu : C.uniondebugconflict = false)
    {n : String} {f : String → Option Ty} (hf : f n = some (jsonTy n)) {v : Val} (hj : Json v) : Yields W C (some f) v (jsonTy n) v := by
  have hsort : sortArgs C [.prim .int, .prim .float, .prim .str, .prim .bool, .prim .none, .coll .list (.fref n), .dict (.prim .str) (.fref n)] =
      [.coll .list (.fref n), .dict (.prim .str) (.fref n), .prim .int, .prim .float, .prim .str, .prim .bool, .prim .none] := by
    simp [sortArgs, List.filter, Config.isBasic, hb .int (by simp), hb .float (by simp), hb .str (by simp), hb .bool (by simp), hb .none (by simp)]
  induction hj with
  | null => exact .union_exact hd (by simp [typeOf, Config.isBasic, hb]) (by simp [typeOf])
  | bool b => exact .union_exact hd (by simp [typeOf, Config.isBasic, hb]) (by simp [typeOf])
  | int i => exact .union_exact hd (by simp [typeOf, Config.isBasic, hb]) (by simp [typeOf])
  | float g => exact .union_exact hd (by simp [typeOf, Config.isBasic, hb]) (by simp [typeOf])
  | str s => exact .union_exact hd (by simp [typeOf, Config.isBasic, hb]) (by simp [typeOf])
  | @array xs _ ih =>
    refine .union_order hd hu (us := []) (u := .coll .list (.fref n)) (by simp [typeOf, Config.isBasic]) (by unfold Ref.unionOrder; rw [hsort]; rfl) ?_ (by simp)
    refine .coll hd (xs := xs) (ys := xs) rfl rfl (pick_fref hd n) (zip2_same fun x hx => ?_) (foldlM_collAdd_seq rfl xs [])
    exact Ok.iterElem (pick_fref hd n) (.fref hd rfl hf (ih x hx)) (by simp) (by simp)
  | @object kvs hk hn _ ih =>
    refine .union_order hd hu (us := [.coll .list (.fref n)]) (u := .dict (.prim .str) (.fref n)) (by simp [typeOf, Config.isBasic])
      (by unfold Ref.unionOrder; rw [hsort]; rfl) ?_ ?_
    · have hz := Yields.dict (W := W) (Γ := some f) (vt := .fref n) hd (kvs := kvs) (rs := kvs) (Or.inl rfl)
        (pick_basic hd (hb .str (by simp)) (by simp)) (pick_fref hd n) (zip2_same fun p hp => by
          obtain ⟨m, hm⟩ := hk p hp
          refine ⟨⟨.basic hd (Or.inl (hb .str (by simp))) (by rw [hm]; rfl), fun _ => rfl⟩, ⟨.fref hd rfl hf (ih p hp), fun _ => rfl⟩, by rw [hm]; rfl⟩)
      have hdis : Distinct (kvs.map (·.1)) := distinct_strs (fun x hx => by
        obtain ⟨p, hp, rfl⟩ := List.mem_map.1 hx
        exact hk p hp) hn
      unfold dictOf at hz
      rw [foldl_dset_distinct (by simpa using hdis)] at hz
      exact hz
    · intro w hw
      simp at hw; subst hw
      exact ⟨_, .coll_dict hd kvs, rfl⟩

/-- **C48** Loading a JSON document of any size and depth into the recursive JSON type returns the document itself, on a loader with
any history whose `frefs` define the name; with or without `basiccast`, `failonextra`. -/
theorem C48_json (hd : C.Default) (h1 : W.NotRequiredLaw) (h2 : W.SteadyTags)
    (hb : ∀ p ∈ [Prim.int, .float, .str, .bool, .none], p ∈ C.basictypes) (hu : C.uniondebugconflict = false)
    {s : LState} (hs : Reachable W C s) {n : String} {fr : List (String × Ty)} (hfr : s.frefs = some fr) (hn : aget fr n = some (jsonTy n))
    {v : Val} (hj : Json v) {t : Ty} (ht : t = .fref n ∨ t = jsonTy n) :
    (∃ s', Loads W C s v t v s') ∧ (∀ r s', Loads W C s v t r s' → r = v) ∧ ∀ e s', ¬ Raises W C s v t e s' := by
  have hΓ : ∃ f, namesIn W s t = some f ∧ f n = some (jsonTy n) := by
    unfold namesIn; rw [hfr]; exact ⟨_, rfl, by rw [hn]⟩
  obtain ⟨f, hΓ, hf⟩ := hΓ
  have hy : Yields W C (some f) v t v := by
    have := yields_json hd hb hu hf hj (W := W)
    rcases ht with rfl | rfl
    · exact .fref hd rfl hf this
    · exact this
  obtain ⟨s1, h3⟩ := hy.loads hd h1 h2 hs (by rw [hΓ]; exact .refl _ _) (steady_json hf ht v)
  refine ⟨⟨s1, h3⟩, fun r s' h4 => ?_, fun e s' h4 => ?_⟩
  · obtain ⟨a, h3⟩ := h3
    obtain ⟨b, h4⟩ := h4
    have := load_det (W := W) (C := C) (v := v) (t := t) (s := s) (n := a) (m := b) (by rw [h3]; simp) (by rw [h4]; simp)
    rw [h3, h4] at this
    cases this; rfl
  · obtain ⟨a, h3⟩ := h3
    obtain ⟨b, h4⟩ := h4
    have := load_det (W := W) (C := C) (v := v) (t := t) (s := s) (n := a) (m := b) (by rw [h3]; simp) (by rw [h4]; simp)
    rw [h3, h4] at this
    cases this

/-- A document. -/
example : Json (.dict [(.str "a", .list [.int 1, .none, .dict []]), (.str "b", .bool true)]) := by
  refine .object (by simp) (by decide) (fun p hp => ?_)
  simp at hp
  rcases hp with rfl | rfl
  · refine .array (fun x hx => ?_)
    simp at hx
    rcases hx with rfl | rfl | rfl
    · exact .int 1
    · exact .null
    · exact .object (by simp) (by decide) (by simp)
  · exact .bool true

/-- A loader that knows the name, after another load. -/
example : ∃ (s : LState) (fr : List (String × Ty)), Reachable Sample.W { Sample.C with basiccast := false } s ∧ s.idx ≠ [] ∧ s.frefs = some fr ∧
    aget fr "Json" = some (jsonTy "Json") := by
  have h : ∃ s, Loads Sample.W { Sample.C with basiccast := false } { frefs := some [("Json", jsonTy "Json")] } (.list [.int 1, .str "x"]) (.fref "Json")
      (.list [.int 1, .str "x"]) s ∧ s.idx ≠ [] ∧ ∃ fr, s.frefs = some fr ∧ aget fr "Json" = some (jsonTy "Json") :=
    ⟨_, ⟨9, rfl⟩, by decide, _, rfl, by decide⟩
  obtain ⟨s, h, hi, fr, hf, hn⟩ := h
  exact ⟨s, fr, .ok (.new (some [("Json", jsonTy "Json")]) []) h, hi, hf, hn⟩

end TL
