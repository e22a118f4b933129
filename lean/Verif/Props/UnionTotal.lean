import Verif.Props.Errors
import Verif.Props.Terminates
/-!
# C10 for types that neither crash nor loop
-/

namespace TL

variable {W : World} {C : Config}

/-- **C10** for unions whose members are sturdy types (see `C05_sturdy`) that terminate (see `C45_terminates`): with `uniondebugconflict`
off, the union accepts whatever some member accepts, whatever the caches hold, and the other members do. -/
theorem C10_sturdy {s : LState} (hd : C.Default) (hl : W.Lawful) (hfe : C.failonextra = false) (hdbg : C.uniondebugconflict = false)
    (hs : Reachable W C s) {v : Val} {ts : List Ty} {p : Ty} (hp : p ∈ ts)
    (hst : ∀ u, Meets W C s (.union ts) u → Sturdy W C (Known W s) u)
    (hloop : ∀ w, Within v w → ∀ u, Meets W C s (.union ts) u → ¬ Endless (Retry W C s (.union ts) w) u)
    (hacc : ∀ s1, Ext W C s s1 → ∃ r s2, Loads W C s1 v p r s2) : ∃ r s', Loads W C s v (.union ts) r s' := by
  rcases C45_terminates hs v (.union ts) (fun i hi => absurd hi (not_installed hd i)) hloop with h | ⟨e, s', h⟩
  · exact h
  · exfalso
    have htl := C05_sturdy hd hl hfe hs hst h
    obtain ⟨e', rfl, hx, ⟨hn, _⟩ | ⟨order, c, r, es, ho, hl, hc⟩⟩ := union_raises hd hs.coh h
    · rw [loadExc, if_neg (by simp [hn])] at htl; exact Bool.noConfusion htl
    · obtain ⟨pre, post, os, rfl, hz, h1, h2, h3, h4, h5⟩ := hl
      simp only [Nat.zero_add] at h1
      rcases h5 hdbg with ⟨rfl, h0⟩ | ⟨x, hx', _⟩
      · have hm : p ∈ pre ++ [] := ho.perm.mem_iff.2 hp
        obtain ⟨s1, s2, e, he, hr, _⟩ := (zip_oks_nil hz h0).1 p (by simpa using hm)
        obtain ⟨r', s3, hl'⟩ := hacc s1 he
        exact hl'.not_raises hr
      · rw [hx'] at h1; simp at h1
        rcases hc with ⟨h, _⟩ | ⟨h, _⟩ <;> omega

/-- `Union[List[int], int]` accepts `True`, which only the last member accepts. -/
example : ∃ r s', Loads Sample.W Sample.C (fresh []) (.bool true) (.union [.coll .list (.prim .int), .prim .int]) r s' := by
  have hm : ∀ u, Meets Sample.W Sample.C (fresh []) (.union [.coll .list (.prim .int), .prim .int]) u →
      u = .union [.coll .list (.prim .int), .prim .int] ∨ u = .coll .list (.prim .int) ∨ u = .prim .int := by
    intro u h
    induction h with
    | self => simp
    | known hb => obtain ⟨fr, h1, h2⟩ := hb; cases h1; cases h2
    | coll _ ih => simp at ih; simp [ih]
    | tuple _ _ ih => simp at ih
    | dictKey _ ih => simp at ih
    | dictVal _ ih => simp at ih
    | union _ hu ih => simp at ih; subst ih; simp at hu; rcases hu with rfl | rfl <;> simp
    | newtype _ ih => simp at ih
    | enum _ _ ih => simp at ih
    | custom hi _ _ => exact absurd hi (not_installed (C := Sample.C) rfl _)
    | field _ hf ht ih => simp at ih
  refine C10_sturdy (C := Sample.C) rfl Sample.lawful rfl rfl (Reachable.new (some []) []) (p := .prim .int) (by simp) ?_ ?_ ?_
  · intro u hu
    rcases hm u hu with rfl | rfl | rfl
    · intro k h; have := h (.prim .int) (by simp); obtain ⟨_, _, _, h, _⟩ := this; cases h
    · trivial
    · trivial
  · intro w _ u hu
    apply not_endless_of_acc
    apply Flat.acc (Config.Default.standalone (C := Sample.C) rfl)
    have hint : Flat (.prim .int) := .other (fun _ _ h => (by cases h)) (fun _ h => (by cases h)) (fun _ h => (by cases h)) (fun _ _ h => (by cases h))
        (fun _ h => (by cases h)) (fun _ h => (by cases h))
    rcases hm u hu with rfl | rfl | rfl
    · refine .union (fun u hu => ?_)
      simp at hu
      rcases hu with rfl | rfl
      · exact .coll hint
      · exact hint
    · exact .coll hint
    · exact hint
  · intro s1 he
    obtain ⟨s', h⟩ := (leaf_loads (W := Sample.W) (C := Sample.C) (v := .bool true) ((Reachable.new (some []) []).coh.ext he)
      (pick_basic (C := Sample.C) rfl (p := .int) (by decide) (by decide)) (x := .ok (.int 1)) (fun _ _ => rfl) (.int 1)).2 rfl
    exact ⟨_, s', h⟩

end TL
