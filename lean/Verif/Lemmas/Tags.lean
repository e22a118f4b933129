import Verif.Lemmas.Rew
/-!
# The discriminator of a union
-/

namespace TL

variable {W : World}

theorem mem_setAdd_foldl {x : Val} (vs : List Val) : ∀ acc, x ∈ vs.foldl setAdd acc → x ∈ acc ∨ x ∈ vs := by
  induction vs with
  | nil => intro acc h; left; exact h
  | cons y vs ih =>
    intro acc h
    rcases ih _ h with h | h
    · unfold setAdd at h
      split at h
      · left; exact h
      · rcases List.mem_append.1 h with h | h
        · left; exact h
        · right; simp at h; simp [h]
    · right; simp [h]

theorem discriminatorliterals_field {rew : List Nat} {u : Ty} {k : String} {vs : List Val}
    (h : (k, vs) ∈ discriminatorliterals W rew u) : HasLiteralField W u k ∧ ∀ l ∈ vs, LiteralField W u k l := by
  unfold discriminatorliterals at h
  split at h
  · rename_i c
    rw [List.mem_filterMap] at h
    obtain ⟨f, hf, h⟩ := h
    split at h
    · cases h
    · unfold literalvalues at h
      split at h
      · rename_i ws hty
        simp only [Option.map_some, Option.some.injEq, Prod.mk.injEq] at h
        refine ⟨⟨c, f, ws, rfl, hf, h.1, hty⟩, fun l hl => ⟨c, f, ws, rfl, hf, h.1, hty, ?_⟩⟩
        rw [← h.2] at hl
        rcases mem_setAdd_foldl ws [] hl with hl | hl
        · cases hl
        · exact hl
      · cases h
  · cases h

theorem commonKeys_mem {ds : List (List (String × List Val))} {k : String} (h : k ∈ commonKeys ds) :
    ∀ d ∈ ds, k ∈ d.map (·.1) := by
  cases ds with
  | nil => intro d hd; cases hd
  | cons d0 ds =>
    simp only [commonKeys, List.mem_filter, List.all_eq_true] at h
    intro d hd
    rcases List.mem_cons.1 hd with rfl | hd
    · exact h.1
    · simpa using h.2 d hd

theorem getD_mem {α : Type} (k : α) (ks : List α) (i : Nat) : ((k :: ks).getD (i % (k :: ks).length) k) ∈ k :: ks := by
  rw [List.getD_eq_getElem?_getD]
  cases h : (k :: ks)[i % (k :: ks).length]? with
  | none => simp
  | some x => exact List.mem_of_getElem? h

theorem mkDisc_key {rew : List Nat} {ts : List Ty} {key : String} {table : List (Val × Ty)}
    (h : mkDisc W rew ts = some (key, table)) :
    (∀ u ∈ ts, HasLiteralField W u key) ∧ table = literalTable key (ts.map (fun t => (t, discriminatorliterals W rew t))) := by
  unfold mkDisc at h
  dsimp only at h
  split at h
  · cases h
  · rename_i k ks hk
    simp only [Option.some.injEq, Prod.mk.injEq] at h
    obtain ⟨h1, h2⟩ := h
    have hm : key ∈ commonKeys ((ts.map (fun t => (t, discriminatorliterals W rew t))).map (·.2)) := by
      rw [hk, ← h1]; exact getD_mem _ _ _
    refine ⟨fun u hu => ?_, by rw [← h2, h1]⟩
    have := commonKeys_mem hm (discriminatorliterals W rew u) (by
      simp only [List.map_map, List.mem_map]; exact ⟨u, hu, rfl⟩)
    obtain ⟨⟨k', vs⟩, hp, rfl⟩ := List.mem_map.1 this
    exact (discriminatorliterals_field hp).1

theorem mkDisc_untagged {rew : List Nat} {ts : List Ty} (h : ∀ k, ∃ u ∈ ts, ¬ HasLiteralField W u k) : mkDisc W rew ts = none := by
  cases hm : mkDisc W rew ts with
  | none => rfl
  | some kt =>
    obtain ⟨key, table⟩ := kt
    obtain ⟨u, hu, hn⟩ := h key
    exact absurd ((mkDisc_key hm).1 u hu) hn

theorem mkDisc_spelling (h : W.OneSpelling) {ts ts' : List Ty} (hk : W.unionKey ts = W.unionKey ts') {rew : List Nat} : mkDisc W rew ts = mkDisc W rew ts' := by
  rcases h ts ts' hk with rfl | hu
  · rfl
  · have hp : ts.Perm ts' := ((W.unionKey_perm ts).symm.trans (by rw [hk])).trans (W.unionKey_perm ts')
    rw [mkDisc_untagged hu, mkDisc_untagged (fun k => let ⟨u, h1, h2⟩ := hu k; ⟨u, hp.mem_iff.1 h1, h2⟩)]

end TL
