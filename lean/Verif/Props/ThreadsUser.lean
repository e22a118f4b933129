import Verif.Props.ReuseUser
import Verif.Props.Threads
/-!
# C59 with handlers added by the user

The same as `C59_alone_partial` and `C59_all_finish_partial` for a Loader whose handler list the user has changed in any way.  The handlers of
the user may call the loader back; they have no state of their own (they are functions of the data, the type and the answers).
-/

namespace TL

variable {W : World} {C : Config}

/-! ## Specification -/

/-- The calls do not define names that one of them, or a handler of the user on its behalf, uses and that the loader does not know. -/
def NoNewNamesOf (W : World) (C : Config) (s : LState) (jobs : List Job) : Prop :=
  ∀ fr, s.frefs = some fr → ∀ i ∈ jobs, ∀ n, UsesOf W C s.names i.type (.fref n) → aget fr n = none →
    ∀ j ∈ jobs, ∀ u, UsesOf W C s.names j.type u → W.tyName u ≠ some n

/-! ## Proof -/

theorem NoNewNamesOf.same {s : LState} {jobs : List Job} (h : NoNewNamesOf W C s jobs) {j : Job} (hj : j ∈ jobs) :
    SameNamesOf W C s.names (namesIn W s j.type) j.type := by
  constructor
  · unfold LState.names namesIn
    cases s.frefs <;> simp
  · intro f f' hf hf' n hu
    obtain ⟨fr, h1, rfl⟩ := LState.names_some hf
    unfold namesIn at hf'
    rw [h1] at hf'
    cases hf'
    dsimp only
    cases ha : aget fr n with
    | some u => rfl
    | none =>
      have := h fr h1 j hj n hu ha j hj j.type .self
      rw [if_neg (fun hh => this hh.2)]

theorem steadyOf_all {s : LState} {jobs : List Job} (h1 : W.NotRequiredLaw) (h2 : W.SteadyTags)
    (hst : ∀ j ∈ jobs, SteadyOf W C s.names j.value j.type) (hn : NoNewNamesOf W C s jobs) :
    Tame W C s.names (fun u => ∃ j ∈ jobs, UsesOf W C s.names j.type u) (fun x u => ∃ j ∈ jobs, ReachesOf W C s.names j.value j.type x u) where
  type _ _ := fun ⟨j, hj, h⟩ => ⟨j, hj, h.uses⟩
  coll _ _ _ _ := fun ⟨j, hj, h⟩ hnd hp _ hx => ⟨j, hj, .elem h hnd hp hx⟩
  tuple _ _ _ := fun ⟨j, hj, h⟩ hnd hp _ _ hx => ⟨j, hj, .item h hnd hp hx⟩
  dict _ _ _ _ := fun ⟨j, hj, h⟩ hd _ hp => ⟨⟨j, hj, .key h hd hp⟩, ⟨j, hj, .val h hd hp⟩⟩
  union _ _ := fun ⟨j, hj, h⟩ _ hu => ⟨j, hj, .member h hu⟩
  newtype _ _ _ := fun ⟨j, hj, h⟩ => ⟨j, hj, .newtype h⟩
  enum _ _ := fun ⟨j, hj, h⟩ _ hu => ⟨j, hj, .hint h hu⟩
  field _ _ _ := fun ⟨j, hj, h⟩ hd _ hf _ _ hk hx _ ht => ⟨j, hj, .field h hd hf hk hx ht⟩
  fref _ f _ _ := fun hΓ ⟨j, hj, h⟩ hf => ⟨j, hj, .fref f h hΓ hf⟩
  unnamed f n hf := fun ⟨i, hi, hu⟩ hno u ⟨j, hj, hw⟩ => by
    obtain ⟨fr, h3, rfl⟩ := LState.names_some hf
    exact hn fr h3 i hi n hu hno j hj u hw
  dictSafe k w := fun ⟨j, hj, hu⟩ => (hst j hj).dictSafe k w hu
  dictColl k w := fun ⟨j, hj, hu⟩ => (hst j hj).dictColl k w hu
  dictExact d k w kvs := fun ⟨j, hj, hd⟩ hk p hp => ((hst j hj).tame h1 h2).dictExact d k w kvs hd hk p hp
  dictUsual k w := fun ⟨j, hj, hu⟩ => (hst j hj).dictUsual k w hu
  asks _ _ _ _ _ := fun ⟨j, hj, h⟩ hp ha => ⟨j, hj, .asks h hp ha⟩
  notRequired := h1
  steadyTags := h2

/-- **C59** A loader with any history and any handlers of the user is shared by any number of threads, each making one call.  However their
accesses are interleaved, a call that has returned (raised) has returned (raised) what it does when it is made alone. -/
theorem C59_user_partial (h1 : W.NotRequiredLaw) (h2 : W.SteadyTags) {s : LState} (hs : Reachable W C s) {jobs : List Job}
    (hst : ∀ j ∈ jobs, SteadyOf W C s.names j.value j.type) (hn : NoNewNamesOf W C s jobs) {c : Conf} (hc : (Conf.start W C s jobs).Steps c)
    {i : Nat} {j : Job} (hj : jobs[i]? = some j) :
    (∀ r, c.threads[i]? = some (.ret r) → ∃ s', load W C j.fuel j.value j.type s = .ok r s') ∧
    (∀ e, c.threads[i]? = some (.raise e) → ∃ s', load W C j.fuel j.value j.type s = .err e s') ∧
    (c.threads[i]? = some .stuck → load W C j.fuel j.value j.type s = .div) := by
  have hmem : j ∈ jobs := List.mem_of_getElem? hj
  have ht := steadyOf_all h1 h2 hst hn
  have hall : AllSafe (Knows W C s.names (fun u => ∃ j ∈ jobs, UsesOf W C s.names j.type u))
      (fun i r => ∀ j, jobs[i]? = some j → r = Ref.load W C s.names j.fuel j.value j.type ()) (Conf.start W C s jobs) := by
    refine ⟨knows_names hs.coh _, fun i m hm => ⟨s, RewGrows.refl _, ?_⟩⟩
    simp only [Conf.start, List.getElem?_map, Option.map_eq_some_iff] at hm
    obtain ⟨j, hj, rfl⟩ := hm
    refine (TK.load ht j.fuel j.value j.type ⟨j, List.mem_of_getElem? hj, .self⟩ s).weaken (fun r hr j' hj' => ?_)
    rw [hj] at hj'; cases hj'
    exact hr
  have hend := hall.steps hc
  have href := load_ref_of hs ((hst j hmem).tame h1 h2) .self (hn.same hmem) j.fuel
  refine ⟨fun r hr => ?_, fun e he => ?_, fun hk => ?_⟩
  · obtain ⟨_, _, h⟩ := hend.safe i _ hr
    exact (href.1 r).2 (h j hj).symm
  · obtain ⟨_, _, h⟩ := hend.safe i _ he
    exact (href.2.1 e).2 (h j hj).symm
  · obtain ⟨_, _, h⟩ := hend.safe i _ hk
    exact href.2.2.2 (h j hj).symm

/-- **C59** The same for types without forward references and dictionaries, with no other condition. -/
theorem C59_user_plain_partial (h1 : W.NotRequiredLaw) (h2 : W.SteadyTags) {s : LState} (hs : Reachable W C s) {jobs : List Job}
    (hf : ∀ j ∈ jobs, ∀ n, ¬ UsesOf W C s.names j.type (.fref n)) (hdict : ∀ j ∈ jobs, ∀ k w, ¬ UsesOf W C s.names j.type (.dict k w))
    {c : Conf} (hc : (Conf.start W C s jobs).Steps c) {i : Nat} {j : Job} (hj : jobs[i]? = some j) :
    (∀ r, c.threads[i]? = some (.ret r) → ∃ s', Loads W C s j.value j.type r s') ∧
    (∀ e, c.threads[i]? = some (.raise e) → ∃ s', Raises W C s j.value j.type e s') := by
  have h := C59_user_partial h1 h2 hs (jobs := jobs)
    (fun j hj => ⟨fun _ n _ hu => absurd hu (hf j hj n), fun k w hu => absurd hu (hdict j hj k w), fun k w hu => absurd hu (hdict j hj k w),
      fun k w hu => absurd hu (hdict j hj k w), fun _ _ _ hu => absurd hu.uses (hdict j hj _ _), fun _ _ _ hu => absurd hu.uses (hdict j hj _ _)⟩)
    (fun _ _ i hi n hu => absurd hu (hf i hi n)) hc hj
  exact ⟨fun r hr => (h.1 r hr).imp fun s' h => ⟨_, h⟩, fun e he => (h.2.1 e he).imp fun s' h => ⟨_, h⟩⟩

/-- The hypotheses of `C59_user_partial` and `C59_user_plain_partial` are met: two threads load lists of paths, which a handler of the user
loads by calling the loader back; a schedule in which they alternate, and both have returned. -/
example : let jobs : List Job := [⟨.list [.str "5"], .coll .list (.strcons "Path"), 9⟩, ⟨.list [.str "5", .str "5"], .coll .list (.strcons "Path"), 9⟩]
    Sample.WB.NotRequiredLaw ∧ Sample.WB.SteadyTags ∧ Reachable Sample.WB Sample.CB (fresh []) ∧
    (∀ j ∈ jobs, ∀ n, ¬ UsesOf Sample.WB Sample.CB (fresh []).names j.type (.fref n)) ∧
    (∀ j ∈ jobs, ∀ k w, ¬ UsesOf Sample.WB Sample.CB (fresh []).names j.type (.dict k w)) ∧
    ∃ c, (Conf.start Sample.WB Sample.CB (fresh []) jobs).Steps c ∧ c.threads[0]? = some (.ret (.list [.int 5])) ∧
      c.threads[1]? = some (.ret (.list [.int 5, .int 5])) := by
  intro jobs
  have ht : ∀ j ∈ jobs, j.type = .coll .list (.strcons "Path") := by simp [jobs]
  refine ⟨Sample.notRequiredLaw, ⟨Sample.steadyTags.1, Sample.steadyTags.2⟩, .new _ _, fun j hj n h => ?_, fun j hj k w h => ?_, ?_⟩
  · rw [ht j hj] at h; have := Sample.uses_path h; simp at this
  · rw [ht j hj] at h; have := Sample.uses_path h; simp at this
  · refine ⟨(Conf.start Sample.WB Sample.CB (fresh []) jobs).play (List.flatten (List.replicate 40 [0, 1])), Conf.play_steps .refl _,
      Conf.returned_iff.1 ?_, Conf.returned_iff.1 ?_⟩ <;> decide +kernel

end TL
