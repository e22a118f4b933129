import Verif.Props.UnionTotal
import Verif.Lemmas.RefRun
/-!
# C09, C10, C50: what a union accepts, independently of the history
-/

namespace TL

variable {W : World} {C : Config} {Γ : Env}

/-- The outcome of trying the members one after the other. -/
theorem refTry_spec {rec : Ref.Rec} {v : Val} {t : Ty} (hu : C.uniondebugconflict = false) (us : List Ty) : ∀ (r0 : Val) (es : List Exc) (c : Nat) (r : Val)
    (es' : List Exc), Ref.unionTry W C rec v t us 0 r0 es () = .ok (c, r, es') () →
    (c = 0 ∧ ∀ u ∈ us, ∀ h, pick W C u = .ok h → ∃ e, rec h v u () = .err e ()) ∨
    (c = 1 ∧ ∃ u ∈ us, ∃ h, pick W C u = .ok h ∧ rec h v u () = .ok r ()) := by
  induction us with
  | nil =>
    intro r0 es c r es' h
    simp only [Ref.unionTry] at h
    cases h
    exact Or.inl ⟨rfl, fun u hu => (by cases hu)⟩
  | cons u us ih =>
    intro r0 es c r es' h
    simp only [Ref.unionTry, M.handle_apply, hu, Bool.false_eq_true, if_false] at h
    have next : ∀ e : Exc, (∀ h, pick W C u = .ok h → ∃ e, rec h v u () = .err e ()) →
        (if e.isTL then Ref.unionTry W C rec v t us 0 r0 (es ++ [e.push ⟨v, t, some (.union u)⟩]) else M.throw e) () = .ok (c, r, es') () →
        (c = 0 ∧ ∀ w ∈ u :: us, ∀ h, pick W C w = .ok h → ∃ e, rec h v w () = .err e ()) ∨
        (c = 1 ∧ ∃ w ∈ u :: us, ∃ h, pick W C w = .ok h ∧ rec h v w () = .ok r ()) := by
      intro e hx h
      split at h
      · rcases ih _ _ _ _ _ h with ⟨a, b⟩ | ⟨a, w, hw, b⟩
        · refine Or.inl ⟨a, fun w hw => ?_⟩
          rcases List.mem_cons.1 hw with rfl | hw
          · exact hx
          · exact b w hw
        · exact Or.inr ⟨a, w, by simp [hw], b⟩
      · cases h
    cases hp : pick W C u with
    | error c' =>
      have hr : ∀ e : Exc, Ref.resolve W C u e () = .err (lookupExc e c') () := by
        intro e; unfold Ref.resolve; rw [hp]; rfl
      simp only [M.bind_apply, hr] at h
      exact next _ (fun h' hh => by rw [hp] at hh; cases hh) h
    | ok hh =>
      have hr : ∀ e : Exc, Ref.resolve W C u e () = .ok hh () := by
        intro e; unfold Ref.resolve; rw [hp]; rfl
      simp only [M.bind_apply, hr] at h
      cases hx : rec hh v u () with
      | ok x s =>
        rw [hx] at h
        cases h
        exact Or.inr ⟨rfl, u, by simp, hh, hp, hx⟩
      | err e s =>
        rw [hx] at h
        exact next e (fun h' hh' => by rw [hp] at hh'; cases hh'; exact ⟨e, hx⟩) h
      | div => rw [hx] at h; cases h

theorem sortArgs_mem' {ts : List Ty} {u : Ty} : u ∈ sortArgs C ts ↔ u ∈ ts := by
  unfold sortArgs
  simp only [List.mem_append, List.mem_filter]
  cases h : C.isBasic u <;> simp [h]

theorem refOrder_mem {v : Val} {ts order : List Ty} (h : Ref.unionOrder W C v ts () = .ok order ()) (u : Ty) : u ∈ order ↔ u ∈ ts := by
  have base : ∀ {order : List Ty}, (Pure.pure (sortArgs C ts) : R (List Ty)) () = .ok order () → (u ∈ order ↔ u ∈ ts) := by
    intro order h; cases h; exact sortArgs_mem'
  unfold Ref.unionOrder at h
  cases v
  case dict kvs =>
    simp only at h
    cases hd : mkDisc W [] ts with
    | none => rw [hd] at h; exact base h
    | some d =>
      obtain ⟨key, table⟩ := d
      rw [hd] at h
      simp only at h
      obtain ⟨_, htab⟩ := mkDisc_key hd
      by_cases he : table.isEmpty = true
      · rw [if_pos he] at h; exact base h
      · rw [if_neg he] at h
        by_cases hh : W.hash ((dget kvs (.str key)).getD .none) = true
        · rw [if_pos hh] at h
          cases hp : dget table ((dget kvs (.str key)).getD .none) with
          | none => rw [hp] at h; exact base h
          | some p =>
            rw [hp] at h
            cases h
            obtain ⟨l', hmem, _⟩ := dget_mem hp
            rw [htab] at hmem
            have hpt := (literalTable_ok [] key ts l' p hmem).1
            unfold bump
            rw [List.mem_cons]
            by_cases hup : u = p
            · subst hup; simp [hpt]
            · rw [List.mem_erase_of_ne hup, sortArgs_mem']; simp [hup]
        · rw [if_neg hh] at h; cases h
  all_goals exact base h

theorem refOrder_err {v : Val} {ts : List Ty} {e : Exc} (h : Ref.unionOrder W C v ts () = .err e ()) : e.isTL = false := by
  unfold Ref.unionOrder at h
  cases v
  case dict kvs =>
    simp only at h
    cases hd : mkDisc W [] ts with
    | none => rw [hd] at h; cases h
    | some d =>
      obtain ⟨key, table⟩ := d
      rw [hd] at h
      simp only at h
      by_cases he : table.isEmpty = true
      · rw [if_pos he] at h; cases h
      · rw [if_neg he] at h
        by_cases hh : W.hash ((dget kvs (.str key)).getD .none) = true
        · rw [if_pos hh] at h
          cases hp : dget table ((dget kvs (.str key)).getD .none) <;> rw [hp] at h <;> cases h
        · rw [if_neg hh] at h; cases h; rfl
  all_goals cases h

/-- What the reference loader makes of a union, apart from crashes and the shortcut for basic types. -/
theorem refUnion_spec (hu : C.uniondebugconflict = false) {n : Nat} {v : Val} {ts : List Ty} :
    (∀ r, Ref.run W C Γ (n + 1) .unionload v (.union ts) () = .ok r () →
      (C.isBasic (typeOf v) = true ∧ typeOf v ∈ ts ∧ r = v) ∨ ∃ u ∈ ts, ∃ h, pick W C u = .ok h ∧ Ref.run W C Γ n h v u () = .ok r ()) ∧
    (∀ e, Ref.run W C Γ (n + 1) .unionload v (.union ts) () = .err e () → e.isTL = true →
      (∀ u ∈ ts, ∀ h, pick W C u = .ok h → ∃ e, Ref.run W C Γ n h v u () = .err e ())) := by
  have hrun : Ref.run W C Γ (n + 1) .unionload v (.union ts) = Ref.unionload W C (Ref.run W C Γ n) v (.union ts) := rfl
  rw [hrun]
  unfold Ref.unionload
  dsimp only
  by_cases hb : (C.isBasic (typeOf v) && ts.contains (typeOf v)) = true
  · rw [if_pos hb]
    simp only [Bool.and_eq_true, List.contains_iff_mem] at hb
    exact ⟨fun r h => (by cases h; exact Or.inl ⟨hb.1, hb.2, rfl⟩), fun e h => (by cases h)⟩
  · rw [if_neg hb]
    simp only [M.bind_apply]
    cases ho : Ref.unionOrder W C v ts () with
    | div => exact ⟨fun r h => (by cases h), fun e h => (by cases h)⟩
    | err e s =>
      refine ⟨fun r h => (by cases h), fun e' h htl => ?_⟩
      cases h
      rw [refOrder_err ho] at htl
      cases htl
    | ok order s =>
      dsimp only
      have hm := refOrder_mem ho
      cases ht : Ref.unionTry W C (Ref.run W C Γ n) v (.union ts) order 0 .none [] () with
      | div => exact ⟨fun r h => (by cases h), fun e h => (by cases h)⟩
      | err e s =>
        refine ⟨fun r h => (by cases h), fun e' h htl => ?_⟩
        cases h
        exfalso
        -- only exceptions of other classes leave the loop
        have : ∀ (us : List Ty) (r0 : Val) (es : List Exc), Ref.unionTry W C (Ref.run W C Γ n) v (.union ts) us 0 r0 es () = .err e () → e.isTL = false := by
          intro us
          induction us with
          | nil => intro r0 es h; cases h
          | cons u us ih =>
            intro r0 es h
            simp only [Ref.unionTry, M.handle_apply, hu, Bool.false_eq_true, if_false] at h
            split at h
            · cases h
            · split at h
              · exact ih _ _ h
              · rename_i hne
                cases h
                simpa using hne
            · cases h
        rw [this _ _ _ ht] at htl
        cases htl
      | ok o s =>
        obtain ⟨c, r, es⟩ := o
        rcases refTry_spec hu _ _ _ _ _ _ ht with ⟨rfl, h0⟩ | ⟨rfl, u, hmu, h, hp, hr⟩
        · refine ⟨fun r h => (by cases h), fun e _ _ u hu' h hp => h0 u ((hm u).2 hu') h hp⟩
        · refine ⟨fun r' h' => ?_, fun e h' => (by cases h')⟩
          cases h'
          exact Or.inr ⟨u, (hm u).1 hmu, h, hp, hr⟩

/-- **C10** (independently of the history). With `uniondebugconflict` off, let the forward references used by the union mean the same for two
loaders `s` and `s'` with any histories (the types being `Steady`, see `C06_history_partial`), and let the data have no known reason to crash the
load into the union, nor to make it loop.  Then the union accepts the data on the first loader if and only if one of its members accepts it on
the second. -/
theorem C10_accepts_iff (hd : C.Default) (hl : W.Lawful) (h1 : W.NotRequiredLaw) (h2 : W.SteadyTags) (hdbg : C.uniondebugconflict = false)
    {s s' : LState} (hs : Reachable W C s) (hs' : Reachable W C s') {v : Val} {ts : List Ty} (hcul : ¬ Culprit W C (Known W s) v (.union ts))
    (hterm : ¬ Diverges W C s v (.union ts)) (hn : SameNames W Γ (namesIn W s (.union ts)) (.union ts)) (hst : Steady W C Γ v (.union ts))
    (hn' : ∀ u ∈ ts, SameNames W Γ (namesIn W s' u) u) (hst' : ∀ u ∈ ts, Steady W C Γ v u) :
    (∃ r s1, Loads W C s v (.union ts) r s1) ↔ ∃ u ∈ ts, ∃ r s1, Loads W C s' v u r s1 := by
  constructor
  · rintro ⟨r, s1, h⟩
    obtain ⟨hh, hp, N, hy⟩ := Yields.of_loads hd h1 h2 hs hn hst h
    rw [pick_union hd] at hp
    cases hp
    rcases (refUnion_spec hdbg).1 r (hy (N + 1) (by omega)) with ⟨hb, hm, rfl⟩ | ⟨u, hu, hh, hp, hr⟩
    · refine ⟨_, hm, r, ?_⟩
      obtain ⟨p, hp, hpb⟩ : ∃ p, typeOf r = .prim p ∧ p ∈ C.basictypes := by
        unfold Config.isBasic at hb
        split at hb
        · rename_i p hp; exact ⟨p, hp, by simpa using hb⟩
        · cases hb
      refine Yields.loads (Γ := Γ) hd h1 h2 hs' (hn' _ hm) (hst' _ hm) ?_
      rw [hp]
      exact .basic hd (Or.inl hpb) hp
    · exact ⟨u, hu, r, Yields.loads hd h1 h2 hs' (hn' u hu) (hst' u hu) (Yields.of_run hp hr)⟩
  · rintro ⟨u, hu, r, s1, h⟩
    obtain ⟨hh, hp, N, hy⟩ := Yields.of_loads hd h1 h2 hs' (hn' u hu) (hst' u hu) h
    have : (∃ r s', Loads W C s v (.union ts) r s') ∨ ∃ e s', Raises W C s v (.union ts) e s' := by
      unfold Diverges at hterm
      simp only [Classical.not_forall] at hterm
      obtain ⟨n, hn⟩ := hterm
      cases hx : load W C n v (.union ts) s with
      | ok r s' => exact Or.inl ⟨r, s', n, hx⟩
      | err e s' => exact Or.inr ⟨e, s', n, hx⟩
      | div => exact absurd hx hn
    rcases this with h | ⟨e, s2, h⟩
    · exact h
    exfalso
    have htl := (C05_typed_errors_partial hd hl hs h).resolve_right hcul
    obtain ⟨n, hr⟩ := (raises_ref hd h1 h2 hs hn hst e).1 ⟨s2, h⟩
    unfold Ref.load at hr
    rw [ref_loadWith_eq (pick_union hd ts)] at hr
    cases hx : Ref.run W C Γ n .unionload v (.union ts) () with
    | ok r' u' => rw [hx] at hr; cases hr
    | div => rw [hx] at hr; cases hr
    | err e' u' =>
      rw [hx] at hr
      have hx' : Ref.run W C Γ (max n N + 1) .unionload v (.union ts) () = .err e' () := by
        rw [ref_run_le (W := W) (C := C) (Γ := Γ) (show n ≤ max n N + 1 by omega) .unionload v (.union ts) () (by rw [hx]; simp), hx]
      cases hr
      have htl' : e'.isTL = true := by
        cases ht : e'.isTL with
        | true => rfl
        | false => rw [loadExc, if_neg (by simp [ht])] at htl; exact Bool.noConfusion htl
      obtain ⟨e'', he⟩ := (refUnion_spec hdbg).2 e' hx' htl' u hu hh hp
      have := hy (max n N) (by omega)
      dsimp only at this
      rw [this] at he
      cases he

/-- **C50** Discriminators do not change what is accepted: whatever hashable values the data has in the Literal fields common to the members, the
union accepts the data if and only if one of the members does. -/
theorem C50_accepts_iff (hd : C.Default) (hl : W.Lawful) (h1 : W.NotRequiredLaw) (h2 : W.SteadyTags) (hdbg : C.uniondebugconflict = false)
    {s s' : LState} (hs : Reachable W C s) (hs' : Reachable W C s') {kvs : List (Val × Val)} {ts : List Ty}
    (htag : ∀ k x, (∀ u ∈ ts, HasLiteralField W u k) → dget kvs (.str k) = some x → W.hash x = true)
    (hcul : ∀ u ∈ ts, ¬ Culprit W C (Known W s) (.dict kvs) u) (hterm : ¬ Diverges W C s (.dict kvs) (.union ts))
    (hn : SameNames W Γ (namesIn W s (.union ts)) (.union ts)) (hst : Steady W C Γ (.dict kvs) (.union ts))
    (hn' : ∀ u ∈ ts, SameNames W Γ (namesIn W s' u) u) (hst' : ∀ u ∈ ts, Steady W C Γ (.dict kvs) u) :
    (∃ r s1, Loads W C s (.dict kvs) (.union ts) r s1) ↔ ∃ u ∈ ts, ∃ r s1, Loads W C s' (.dict kvs) u r s1 := by
  refine C10_accepts_iff hd hl h1 h2 hdbg hs hs' (fun hc => ?_) hterm hn hst hn' hst'
  cases hc with
  | tag h =>
    obtain ⟨kvs', k, x, he, g1, g2, g3⟩ := h
    cases he
    rw [htag k x g1 g2] at g3
    cases g3
  | member hu h => exact hcul _ hu h
  | user h => exact absurd (pick_installed h) (not_installed hd _)
  | asked h => exact absurd (pick_installed h) (not_installed hd _)

theorem Sample.uses_L {Γ : Env} {t u : Ty} (ht : t = .union [.obj 5, .obj 6] ∨ t = .obj 5 ∨ t = .obj 6) (h : Uses Sample.W Γ t u) :
    u = .union [.obj 5, .obj 6] ∨ u = .obj 5 ∨ u = .obj 6 ∨ u = .lit [.str "one"] ∨ u = .lit [.str "two"] ∨ u = .prim .int := by
  induction h with
  | self => rcases ht with rfl | rfl | rfl <;> simp
  | coll _ ih => simp at ih
  | tuple _ _ ih => simp at ih
  | dictKey _ ih => simp at ih
  | dictVal _ ih => simp at ih
  | newtype _ ih => simp at ih
  | enum _ _ ih => simp at ih
  | union _ hu ih => simp at ih; subst ih; simp at hu; rcases hu with rfl | rfl <;> simp
  | field _ hf hty ih =>
    simp at ih
    rcases ih with rfl | rfl
    · have hf' : _ ∈ Sample.clsL1.fields := hf
      simp [Sample.clsL1] at hf'
      rcases hf' with rfl | rfl <;> (cases hty <;> first | (simp; done) | contradiction)
    · have hf' : _ ∈ Sample.clsL2.fields := hf
      simp [Sample.clsL2] at hf'
      rcases hf' with rfl | rfl <;> (cases hty <;> first | (simp; done) | contradiction)
  | fref f _ hΓ hn ih => simp at ih

/-- `Union[L1, L2]`, discriminated by `tag`: any dictionary whose tag is hashable is accepted by the union if and only if it is accepted by `L1` or
by `L2`, on any loader. -/
example (kvs : List (Val × Val)) (s : LState) (hs : Reachable Sample.W Sample.C s) (hf : s.frefs ≠ none)
    (htag : ∀ x, dget kvs (.str "tag") = some x → Sample.W.hash x = true) :
    (∃ r s1, Loads Sample.W Sample.C (fresh []) (.dict kvs) (.union [.obj 5, .obj 6]) r s1) ↔
    ∃ u ∈ [Ty.obj 5, .obj 6], ∃ r s1, Loads Sample.W Sample.C s (.dict kvs) u r s1 := by
  have hmem : ∀ u ∈ [Ty.obj 5, .obj 6], u = .union [.obj 5, .obj 6] ∨ u = .obj 5 ∨ u = .obj 6 := by intro u hu; simp at hu; simp [hu]
  have hsame : ∀ s' t, s'.frefs ≠ none → (t = .union [.obj 5, .obj 6] ∨ t = .obj 5 ∨ t = .obj 6) →
      SameNames Sample.W (some (fun _ => none)) (namesIn Sample.W s' t) t := by
    intro s' t hf ht
    refine ⟨⟨fun h => (by cases h), fun h => ?_⟩, fun f f' _ _ n hu => absurd (Sample.uses_L ht hu) (by simp)⟩
    unfold namesIn at h
    cases hfr : s'.frefs with
    | none => exact absurd hfr hf
    | some fr => rw [hfr] at h; cases h
  have hst : ∀ t, (t = .union [.obj 5, .obj 6] ∨ t = .obj 5 ∨ t = .obj 6) → Steady Sample.W Sample.C (some (fun _ => none)) (.dict kvs) t := fun t ht =>
    ⟨fun f n _ hu => absurd (Sample.uses_L ht hu) (by simp), fun k w hu => absurd (Sample.uses_L ht hu) (by simp),
      fun k w hu => absurd (Sample.uses_L ht hu) (by simp), fun _ _ _ hu => absurd (Sample.uses_L ht hu.uses) (by simp),
      fun _ _ _ hu => absurd (Sample.uses_L ht hu.uses) (by simp)⟩
  refine C50_accepts_iff (C := Sample.C) (Γ := some (fun _ => none)) rfl Sample.lawful Sample.notRequiredLaw Sample.steadyTags rfl (Reachable.new (some []) []) hs ?_ ?_ ?_
    (hsame _ _ (by simp [fresh]) (by simp)) (hst _ (by simp)) (fun u hu => hsame _ _ hf (hmem u hu)) (fun u hu => hst u (hmem u hu))
  · intro k x hk hx
    have : k = "tag" := by
      obtain ⟨c, f, vs, hc, hf, rfl, hty⟩ := hk (.obj 5) (by simp)
      cases hc
      simp only [Sample.W, Sample.cls, Sample.clsL1, List.mem_cons, List.not_mem_nil, or_false] at hf
      rcases hf with rfl | rfl
      · rfl
      · cases hty
    subst this
    exact htag x hx
  · intro u hu hc
    have hnc : ∀ t i, pick Sample.W Sample.C t ≠ .ok (.custom i) := fun t i h => absurd (pick_installed h) (not_installed (C := Sample.C) rfl _)
    have leaf : ∀ x, ¬ Culprit Sample.W Sample.C (Known Sample.W (fresh [])) x (.lit [.str "one"]) ∧
        ¬ Culprit Sample.W Sample.C (Known Sample.W (fresh [])) x (.lit [.str "two"]) ∧
        ¬ Culprit Sample.W Sample.C (Known Sample.W (fresh [])) x (.prim .int) :=
      fun x => ⟨fun h => (by cases h <;> exact hnc _ _ ‹_›), fun h => (by cases h <;> exact hnc _ _ ‹_›), fun h => (by cases h <;> exact hnc _ _ ‹_›)⟩
    have hobj : ∀ c, (c = 5 ∨ c = 6) → ¬ Culprit Sample.W Sample.C (Known Sample.W (fresh [])) (.dict kvs) (.obj c) := by
      intro c hc h
      cases h with
      | user h => exact hnc _ _ h
      | asked h => exact hnc _ _ h
      | extraKey h => cases h
      | constructor h => cases h
      | converter h => rcases hc with rfl | rfl <;> cases h
      | field _ _ hf hty hcul =>
        rcases hc with rfl | rfl
        · have hf' : _ ∈ Sample.clsL1.fields := hf
          simp [Sample.clsL1] at hf'
          rcases hf' with rfl | rfl <;> (cases hty <;> first | exact (leaf _).1 hcul | exact (leaf _).2.2 hcul | contradiction)
        · have hf' : _ ∈ Sample.clsL2.fields := hf
          simp [Sample.clsL2] at hf'
          rcases hf' with rfl | rfl <;> (cases hty <;> first | exact (leaf _).2.1 hcul | exact (leaf _).2.2 hcul | contradiction)
    simp at hu
    rcases hu with rfl | rfl
    · exact hobj 5 (by simp) hc
    · exact hobj 6 (by simp) hc
  · have hm : ∀ u, Meets Sample.W Sample.C (fresh []) (.union [.obj 5, .obj 6]) u →
        u = .union [.obj 5, .obj 6] ∨ u = .obj 5 ∨ u = .obj 6 ∨ u = .lit [.str "one"] ∨ u = .lit [.str "two"] ∨ u = .prim .int := by
      intro u h
      induction h with
      | self => simp
      | known hb => obtain ⟨fr, h1, h2⟩ := hb; cases h1; cases h2
      | coll _ ih => simp at ih
      | tuple _ _ ih => simp at ih
      | dictKey _ ih => simp at ih
      | dictVal _ ih => simp at ih
      | union _ hu ih => simp at ih; subst ih; simp at hu; rcases hu with rfl | rfl <;> simp
      | newtype _ ih => simp at ih
      | enum _ _ ih => simp at ih
      | custom hi _ _ => exact absurd hi (not_installed (C := Sample.C) rfl _)
      | field _ hf hty ih =>
        simp at ih
        rcases ih with rfl | rfl
        · have hf' : _ ∈ Sample.clsL1.fields := hf
          simp [Sample.clsL1] at hf'
          rcases hf' with rfl | rfl <;> (cases hty <;> first | (simp; done) | contradiction)
        · have hf' : _ ∈ Sample.clsL2.fields := hf
          simp [Sample.clsL2] at hf'
          rcases hf' with rfl | rfl <;> (cases hty <;> first | (simp; done) | contradiction)
    intro hdiv
    rcases C45_classes (Config.Default.standalone (C := Sample.C) rfl) (W := Sample.W) (C := Sample.C) (Reachable.new (some []) []) (.dict kvs) (.union [.obj 5, .obj 6])
      (fun n u hu => absurd (hm _ hu) (by simp)) (fun e u hu => absurd (hm _ hu) (by simp)) with ⟨r, s', n, h⟩ | ⟨e, s', n, h⟩
    · have h' := hdiv n
      exact absurd (h.symm.trans h') (by simp)
    · have h' := hdiv n
      exact absurd (h.symm.trans h') (by simp)

end TL
