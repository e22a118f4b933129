import Verif.Spec.Local
/-!
# The dumper depends on the handler list only through the values it meets
-/

namespace TL

variable {W : World} {C : DConfig}

/-- The caches hold handlers of the list and the descriptions of the classes. -/
structure DTidy (W : World) (C : DConfig) (s : DState) : Prop where
  hc : ∀ t h, aget s.hc t = some h → ∃ c, (c, h) ∈ C.handlers
  dc : ∀ c d, aget s.dc c = some d → d = mkDataDesc W (W.cls c)

/-- From every tidy state the same outcome and the same state, which is tidy; results satisfy `Q`. -/
def DSame (W : World) (C : DConfig) {α : Type} (Q : α → Prop) (m m' : D α) : Prop :=
  ∀ s, DTidy W C s → m s = m' s ∧ Post m s (fun a s' => DTidy W C s' ∧ Q a) (fun _ s' => DTidy W C s')

variable {α β : Type} {Q : α → Prop} {Q' : β → Prop}

theorem DSame.pure {a : α} (h : Q a) : DSame W C Q (Pure.pure a) (Pure.pure a) := fun _ hs => ⟨rfl, hs, h⟩
theorem DSame.throw {e : Exc} : DSame W C Q (M.throw e) (M.throw e) := fun _ hs => ⟨rfl, hs⟩
theorem DSame.bind {m m' : D α} {f f' : α → D β} (hm : DSame W C Q m m') (hf : ∀ a, Q a → DSame W C Q' (f a) (f' a)) :
    DSame W C Q' (m >>= f) (m' >>= f') := by
  intro s hs
  obtain ⟨h1, h2⟩ := hm s hs
  refine ⟨?_, ?_⟩
  · simp only [M.bind_apply]
    rw [← h1]
    unfold Post at h2
    cases hr : m s with
    | ok a s' => rw [hr] at h2; exact (hf a h2.2 s' h2.1).1
    | err e s' => rfl
    | div => rfl
  · rw [post_bind]
    exact h2.mono (fun a s' h => (hf a h.2 s' h.1).2) (fun _ _ h => h)
theorem DSame.handle {m m' : D α} {f f' : α → D β} {g g' : Exc → D β} (hm : DSame W C Q m m') (hf : ∀ a, Q a → DSame W C Q' (f a) (f' a))
    (hg : ∀ e, DSame W C Q' (g e) (g' e)) : DSame W C Q' (M.handle m f g) (M.handle m' f' g') := by
  intro s hs
  obtain ⟨h1, h2⟩ := hm s hs
  refine ⟨?_, ?_⟩
  · simp only [M.handle_apply]
    rw [← h1]
    unfold Post at h2
    cases hr : m s with
    | ok a s' => rw [hr] at h2; exact (hf a h2.2 s' h2.1).1
    | err e s' => rw [hr] at h2; exact (hg e s' h2).1
    | div => rfl
  · rw [post_handle]
    exact h2.mono (fun a s' h => (hf a h.2 s' h.1).2) (fun e s' h => (hg e s' h).2)

/-- The handler chosen is in the list. -/
theorem dPick_inlist {v : Val} {h : DHandler} (hp : dPick W C v = .ok h) : ∃ c, (c, h) ∈ C.handlers := by
  unfold dPick at hp
  split at hp
  · cases hp
  · split at hp
    · rename_i p hq; cases hp; exact ⟨p.1, List.mem_of_getElem? hq⟩
    · cases hp

/-- A set of values (with annotations) closed under the calls the dumper makes. -/
structure DClosed (W : World) (C : DConfig) (G : Val → Ty → Prop) : Prop where
  item : ∀ k xs u, G (.seq k xs) u → ∀ x ∈ xs, G x .any
  ntField : ∀ c fs u, G (.nt c fs) u → ∀ p ∈ fs, G p.2 .any
  key : ∀ kvs u, G (.dict kvs) u → ∀ p ∈ kvs, G p.1 .any
  val : ∀ kvs u, G (.dict kvs) u → ∀ p ∈ kvs, G p.2 .any
  field : ∀ c fs u, G (.inst c fs) u → ∀ p ∈ fs, G p.2 .any
  annotated : ∀ c fs u, G (.inst c fs) u → ∀ p ∈ fs, ∀ f ∈ (W.cls c).fields, f.name = p.1 → G p.2 f.ty
  member : ∀ e n u, G (.enumv e n) u → ∀ x, aget (W.enm e).members n = some x → G x .any
  custom : ∀ x u, G x u → ∀ c i, (c, DHandler.custom i) ∈ C.handlers → ∀ y w, (W.dumpCustom i x u).Asks y w → G y w

theorem DMeets.closed (v : Val) (t : Ty) : DClosed W C (DMeets W C v t) where
  item _ _ _ h _ hx := .item h hx
  ntField _ _ _ h _ hx := .ntField h hx
  key _ _ h _ hx := .key h hx
  val _ _ h _ hx := .val h hx
  field _ _ _ h _ hx := .field h hx
  annotated _ _ _ h _ hx _ hf hn := .annotated h hx hf hn
  member _ _ _ h _ hx := .member h hx
  custom _ _ h _ _ hi _ _ ha := .custom h hi ha

section steps
variable {G : Val → Ty → Prop} {hs : List (DCond × DHandler)} (hcl : DClosed W C G)
  (hpick : ∀ x u, G x u → dPick W C x = dPick W { C with handlers := hs } x)
  (hshort : ∀ x u, G x u → C.isBasic (iterItemTy u) = true →
    (C.handlers.head?.map (·.2) == some .identity) = (hs.head?.map (·.2) == some .identity))
  {rec rec' : DRec DState} (hrec : ∀ x u, G x u → DSame W C (fun _ => True) (rec x u) (rec' x u))
include hrec

theorem DSame.dumpList (xs : List Val) (hg : ∀ x ∈ xs, G x .any) : DSame W C (fun _ => True) (TL.dumpList rec xs) (TL.dumpList rec' xs) := by
  induction xs with
  | nil => exact DSame.pure trivial
  | cons x xs ih =>
    unfold TL.dumpList
    exact DSame.bind (hrec x .any (hg x (by simp))) (fun y _ => DSame.bind (ih (fun w hw => hg w (by simp [hw]))) (fun ys _ => DSame.pure trivial))

theorem DSame.dumpDict (kvs : List (Val × Val)) (hk : ∀ p ∈ kvs, G p.1 .any) (hv : ∀ p ∈ kvs, G p.2 .any) : ∀ acc,
    DSame W C (fun _ => True) (TL.dumpDict W rec kvs acc) (TL.dumpDict W rec' kvs acc) := by
  induction kvs with
  | nil => intro acc; exact DSame.pure trivial
  | cons p kvs ih =>
    intro acc
    obtain ⟨k, x⟩ := p
    unfold TL.dumpDict
    refine DSame.bind (hrec k .any (hk (k, x) (by simp))) (fun k' _ => DSame.bind (hrec x .any (hv (k, x) (by simp))) (fun x' _ => ?_))
    split
    · exact ih (fun p hp => hk p (by simp [hp])) (fun p hp => hv p (by simp [hp])) _
    · exact DSame.throw

theorem DSame.dumpNt (defaults : List (String × Val)) (fs : List (String × Val)) (hg : ∀ p ∈ fs, G p.2 .any) :
    DSame W C (fun _ => True) (TL.dumpNt C rec defaults fs) (TL.dumpNt { C with handlers := hs } rec' defaults fs) := by
  induction fs with
  | nil => exact DSame.pure trivial
  | cons p fs ih =>
    obtain ⟨k, x⟩ := p
    have ih := ih (fun w hw => hg w (by simp [hw]))
    unfold TL.dumpNt
    split
    · exact ih
    · exact DSame.bind (hrec x .any (hg (k, x) (by simp))) (fun y _ => DSame.bind ih (fun r _ => DSame.pure trivial))

theorem DSame.dumpFields (cd : ClassDef) (defaults : List (String × Val)) (hints : List (String × Ty)) (vals : List (String × Val))
    (hg : ∀ f x, aget vals f = some x → G x ((aget hints f).getD .any)) (fs : List String) : ∀ acc,
    DSame W C (fun _ => True) (TL.dumpFields W C rec cd defaults hints vals fs acc)
      (TL.dumpFields W { C with handlers := hs } rec' cd defaults hints vals fs acc) := by
  induction fs with
  | nil => intro acc; exact DSame.pure trivial
  | cons f fs ih =>
    intro acc
    unfold TL.dumpFields
    cases ha : aget vals f with
    | none => exact DSame.throw
    | some x =>
      dsimp only
      split
      · exact ih _
      · exact DSame.bind (hrec x _ (hg f x ha)) (fun y _ => ih _)

theorem DSame.dumpAttrs (vals : List (String × Val)) (hg : ∀ f x, aget vals f = some x → G x .any) (fs : List Field) : ∀ acc,
    DSame W C (fun _ => True) (TL.dumpAttrs C rec vals fs acc) (TL.dumpAttrs { C with handlers := hs } rec' vals fs acc) := by
  induction fs with
  | nil => intro acc; exact DSame.pure trivial
  | cons f fs ih =>
    intro acc
    unfold TL.dumpAttrs
    cases ha : aget vals f.name with
    | none => exact DSame.throw
    | some x =>
      dsimp only
      split
      · exact ih _
      · split <;> split
        all_goals first | exact ih _ | exact DSame.bind (hrec x _ (hg _ x ha)) (fun y _ => ih _)

theorem DSame.script (p : Script) (hp : ∀ x u, p.Asks x u → G x u) :
    DSame W C (fun _ => True) (p.run (fun x u _ => rec x u)) (p.run (fun x u _ => rec' x u)) := by
  induction p with
  | ret v => exact DSame.pure trivial
  | raise e => exact DSame.throw
  | call v t a next ih =>
    exact DSame.handle (hrec v t (hp v t .here)) (fun r _ => ih (.ok r) (fun x u h => hp x u (.later h)))
      (fun e => ih (.error e) (fun x u h => hp x u (.later h)))

include hcl hshort
theorem DSame.iteratordump {v : Val} {t : Ty} (hg : G v t) :
    DSame W C (fun _ => True) (TL.iteratordump C rec v t) (TL.iteratordump { C with handlers := hs } rec' v t) := by
  have hitems : ∀ x ∈ iterContents v, G x .any := by
    intro x hx
    cases v <;> simp [iterContents] at hx
    case seq k xs => exact hcl.item _ _ _ hg x hx
    case nt c fs => obtain ⟨a, h⟩ := hx; exact hcl.ntField _ _ _ hg (a, x) h
  unfold TL.iteratordump
  cases hb : C.isBasic (iterItemTy t) with
  | false =>
    have hb' : ({ C with handlers := hs } : DConfig).isBasic (iterItemTy t) = false := hb
    rw [hb']
    simp only [Bool.false_and, Bool.false_eq_true, if_false]
    exact DSame.bind (DSame.dumpList hrec _ hitems) (fun _ _ => DSame.pure trivial)
  | true =>
    have hb' : ({ C with handlers := hs } : DConfig).isBasic (iterItemTy t) = true := hb
    rw [hb', hshort v t hg hb]
    simp only [Bool.true_and]
    split
    · exact DSame.pure trivial
    · exact DSame.bind (DSame.dumpList hrec _ hitems) (fun _ _ => DSame.pure trivial)

omit hcl hshort hrec in
theorem DSame.desc (c : Nat) : DSame W C (fun d => d = mkDataDesc W (W.cls c)) (dataclassDesc W c) (dataclassDesc W c) := by
  intro s hsd
  refine ⟨rfl, ?_⟩
  unfold dataclassDesc
  rw [post_bind, post_get]
  cases hd : aget s.dc c with
  | some d => exact ⟨hsd, hsd.dc c d hd⟩
  | none =>
    refine ⟨⟨hsd.hc, fun c' d h => ?_⟩, rfl⟩
    rcases aget_aset_new c' d h with h | ⟨rfl, rfl⟩
    · exact hsd.dc _ _ h
    · rfl

theorem DSame.dstep {h : DHandler} (hin : ∃ c, (c, h) ∈ C.handlers) {v : Val} {t : Ty} (hg : G v t) :
    DSame W C (fun _ => True) (TL.dstep W C (dataclassDesc W) rec h v t) (TL.dstep W { C with handlers := hs } (dataclassDesc W) rec' h v t) := by
  have dt : DSame W C (fun _ => True) (TL.datetimedump W C v) (TL.datetimedump W { C with handlers := hs } v) := by
    have : TL.datetimedump (σ := DState) W { C with handlers := hs } v = TL.datetimedump W C v := rfl
    rw [this]
    unfold TL.datetimedump
    repeat' split
    all_goals first | exact DSame.pure trivial | exact DSame.throw
  cases h <;> unfold TL.dstep <;> dsimp only
  case identity => exact DSame.pure trivial
  case namedtuple =>
    cases v <;> try exact DSame.throw
    exact DSame.bind (DSame.dumpNt hrec _ _ (hcl.ntField _ _ _ hg)) (fun _ _ => DSame.pure trivial)
  case dataclass =>
    cases v <;> try exact DSame.throw
    rename_i c vals
    refine DSame.bind (DSame.desc c) (fun d hd => ?_)
    subst hd
    refine DSame.bind (DSame.dumpFields hrec _ _ _ _ (fun f x hx => ?_) _ _) (fun _ _ => DSame.pure trivial)
    have hmem := aget_mem hx
    cases hh : aget (mkDataDesc W (W.cls c)).hints f with
    | none => exact hcl.field _ _ _ hg _ hmem
    | some u =>
      have := aget_mem hh
      simp only [mkDataDesc, List.mem_map] at this
      obtain ⟨g, hgf, he⟩ := this
      cases he
      exact hcl.annotated _ _ _ hg _ hmem g hgf rfl
  case iterator => exact DSame.iteratordump hcl hshort hrec hg
  case enum =>
    cases v <;> try exact DSame.throw
    rename_i e n
    dsimp only
    cases ha : aget (W.enm e).members n with
    | none => exact DSame.throw
    | some x => exact hrec x .any (hcl.member _ _ _ hg x ha)
  case dict =>
    cases v <;> try exact DSame.throw
    exact DSame.bind (DSame.dumpDict hrec _ (hcl.key _ _ hg) (hcl.val _ _ hg) _) (fun _ _ => DSame.pure trivial)
  case attrs =>
    cases v <;> try exact DSame.throw
    exact DSame.bind (DSame.dumpAttrs hrec _ (fun f x hx => hcl.field _ _ _ hg _ (aget_mem hx)) _ _) (fun _ _ => DSame.pure trivial)
  case date => exact dt
  case timedelta => cases v <;> first | exact DSame.throw | exact DSame.pure trivial
  case pattern => cases v <;> first | exact DSame.throw | exact DSame.pure trivial
  case str => exact DSame.pure trivial
  case custom i =>
    obtain ⟨c, hc⟩ := hin
    exact DSame.script hrec _ (fun x u ha => hcl.custom v t hg c i hc x u ha)

omit hcl hshort hrec in
include hpick in
theorem DSame.dResolve {v : Val} {t : Ty} (hg : G v t) :
    DSame W C (fun h => ∃ c, (c, h) ∈ C.handlers) (TL.dResolve W C v) (TL.dResolve W { C with handlers := hs } v) := by
  intro s hsd
  refine ⟨by unfold TL.dResolve; rw [hpick v t hg], ?_⟩
  unfold TL.dResolve
  rw [post_bind, post_get]
  cases ha : aget s.hc (typeOf v) with
  | some h => exact ⟨hsd, hsd.hc _ _ ha⟩
  | none =>
    cases hp : dPick W C v with
    | error e => exact hsd
    | ok h =>
      refine ⟨⟨fun t' h' hh => ?_, hsd.dc⟩, dPick_inlist hp⟩
      rcases aget_aset_new t' h' hh with hh | ⟨rfl, rfl⟩
      · exact hsd.hc _ _ hh
      · exact dPick_inlist hp
end steps

theorem DSame.dump {G : Val → Ty → Prop} {hs : List (DCond × DHandler)} (hcl : DClosed W C G)
    (hpick : ∀ x u, G x u → dPick W C x = dPick W { C with handlers := hs } x)
    (hshort : ∀ x u, G x u → C.isBasic (iterItemTy u) = true →
      (C.handlers.head?.map (·.2) == some .identity) = (hs.head?.map (·.2) == some .identity)) (n : Nat) :
    ∀ x u, G x u → DSame W C (fun _ => True) (TL.dump W C n x u) (TL.dump W { C with handlers := hs } n x u) := by
  induction n with
  | zero => intro x u _ s hs; exact ⟨rfl, trivial⟩
  | succ n ih =>
    intro x u hg
    unfold TL.dump
    exact DSame.bind (DSame.dResolve hpick hg) (fun h hin => DSame.dstep hcl hshort ih hin hg)

/-- Dumps keep the caches tidy. -/
theorem AfterDumps.tidy {s : DState} (h : AfterDumps W C s) : DTidy W C s := by
  have key : ∀ n v t s, DTidy W C s → Post (TL.dump W C n v t) s (fun _ s' => DTidy W C s' ∧ True) (fun _ s' => DTidy W C s') :=
    fun n v t s hs => (DSame.dump (hs := C.handlers) (DMeets.closed v t) (fun _ _ _ => rfl) (fun _ _ _ _ => rfl) n v t .self s hs).2
  induction h with
  | new => exact ⟨fun _ _ h => (by cases h), fun _ _ h => (by cases h)⟩
  | ok _ hd ih =>
    rename_i s s' v t r hs
    obtain ⟨n, hn⟩ := hd
    have := key n v t s ih
    unfold Post at this
    rw [hn] at this
    exact this.1
  | err _ hd ih =>
    rename_i s s' v t e hs
    obtain ⟨n, hn⟩ := hd
    have := key n v t s ih
    unfold Post at this
    rw [hn] at this
    exact this

end TL
