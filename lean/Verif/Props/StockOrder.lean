import Verif.Props.Stock
import Verif.Props.Order
/-!
# The order of the keys, with handlers of the user for other types
-/

namespace TL

variable {W : World} {C : Config}

/-- **C61** With handlers of the user for other types, without casts, for data with string keys. -/
theorem C61_strict_user (h1 : W.NotRequiredLaw) (h2 : W.SteadyTags) (hl : W.Lawful) (hbc : C.basiccast = false)
    {s : LState} (hs : UsualHistory W C s) {v v' : Val} {t : Ty} (hus : ∀ u, Meets W C s t u → C.Usual W u)
    (hst : ∀ u, Meets W C.stock s t u → Sturdy W C.stock (Known W s) u)
    (hcls : ∀ c, Meets W C.stock s t (.obj c) → WFNames C.stock (W.cls c).kind (W.cls c).fields ∧ OrderlessInit W c)
    (hk : ∀ k u, Meets W C.stock s t (.dict k u) → k = .prim .str)
    (hcall : ∀ c, Meets W C.stock s t (.strcons c) → ∀ x x', Shuf x x' → Alike Shuf (W.call (.strcons c) x) (W.call (.strcons c) x'))
    (hmiss : ∀ e, Meets W C.stock s t (.enum e) → ∀ a b, Shuf a b → W.missing e a = W.missing e b)
    (hv : Steady W C.stock (namesIn W s t) v t) (hfe : StringKeys C.stock v)
    (hkeys : ∀ x kvs, Within v x → DictData C.stock x kvs → (kvs.map (·.1)).Nodup)
    (hend : ∀ w, Within v w → ∀ u, Meets W C.stock s t u → ¬ Endless (Retry W C.stock s t w) u) (hvv : Shuf v v') :
    (∃ r r' s1 s2, Loads W C s v t r s1 ∧ Loads W C s v' t r' s2 ∧ Shuf r r') ∨
    ∃ e e' s1 s2, Raises W C s v t e s1 ∧ Raises W C s v' t e' s2 := by
  obtain ⟨a1, a2, _⟩ := C83_stock hs hus v
  obtain ⟨b1, b2, _⟩ := C83_stock hs hus v'
  simp only [a1, a2, b1, b2]
  exact C61_strict C.stock_default h1 h2 hl hbc (C83_stock_state hs) hst hcls hk hcall hmiss hv hfe hkeys hend hvv

/-- **C61** … and for what `json.loads` returns. -/
theorem C61_json_user (h1 : W.NotRequiredLaw) (h2 : W.SteadyTags) (hl : W.Lawful) (hbc : C.basiccast = false)
    {s : LState} (hs : UsualHistory W C s) {v v' : Val} (hj : Json v) {t : Ty} (hus : ∀ u, Meets W C s t u → C.Usual W u)
    (hst : ∀ u, Meets W C.stock s t u → Sturdy W C.stock (Known W s) u)
    (hcls : ∀ c, Meets W C.stock s t (.obj c) → WFNames C.stock (W.cls c).kind (W.cls c).fields ∧ OrderlessInit W c)
    (hk : ∀ k u, Meets W C.stock s t (.dict k u) → k = .prim .str)
    (hcall : ∀ c, Meets W C.stock s t (.strcons c) → ∀ x x', Shuf x x' → Alike Shuf (W.call (.strcons c) x) (W.call (.strcons c) x'))
    (hmiss : ∀ e, Meets W C.stock s t (.enum e) → ∀ a b, Shuf a b → W.missing e a = W.missing e b)
    (hv : Steady W C.stock (namesIn W s t) v t)
    (hend : ∀ w, Within v w → ∀ u, Meets W C.stock s t u → ¬ Endless (Retry W C.stock s t w) u) (hvv : Shuf v v') :
    (∃ r r' s1 s2, Loads W C s v t r s1 ∧ Loads W C s v' t r' s2 ∧ Shuf r r') ∨
    ∃ e e' s1 s2, Raises W C s v t e s1 ∧ Raises W C s v' t e' s2 := by
  obtain ⟨a1, a2, _⟩ := C83_stock hs hus v
  obtain ⟨b1, b2, _⟩ := C83_stock hs hus v'
  simp only [a1, a2, b1, b2]
  exact C61_json C.stock_default h1 h2 hl hbc (C83_stock_state hs) hj hst hcls hk hcall hmiss hv hend hvv

namespace Sample

/-- `l.handlers.append((lambda t: True, lambda l, v, t: v))`, with `basiccast=False` -/
def CAstrict : Config := { strict with handlers := defaultHandlers ++ [(.custom 1, .custom 1)] }

theorem meets_nodeA {u : Ty} (h : Meets Sample.W CAstrict (fresh []) (.obj 7) u) :
    u = .obj 7 ∨ u = .prim .int ∨ u = .union [.fref "Node", .prim .none] ∨ u = .fref "Node" ∨ u = .prim .none := by
  induction h with
  | self => exact Or.inl rfl
  | known h => obtain ⟨fr, h1, h2⟩ := h; simp [fresh] at h1; subst h1; cases h2
  | @custom k x u y w hin _ ha ih =>
    have : k = 1 := by obtain ⟨c, hc⟩ := hin; simp [CAstrict, defaultHandlers] at hc; exact hc.2
    subst this
    cases ha
  | union _ hu ih =>
    simp at ih; subst ih
    simp at hu; rcases hu with rfl | rfl <;> simp
  | field _ hf ht ih =>
    simp at ih; subst ih
    have hf' : _ ∈ clsNode.fields := hf
    simp [clsNode] at hf'
    rcases hf' with rfl | rfl <;> cases ht <;> first | (simp; done) | contradiction
  | _ => rename_i ih; simp at ih

theorem usual_nodeA (u : Ty) (hu : Meets Sample.W CAstrict (fresh []) (.obj 7) u) : CAstrict.Usual Sample.W u := by
  rcases meets_nodeA hu with rfl | rfl | rfl | rfl | rfl <;> rfl

/-- Whatever the json data, with a handler of the user at the end of the list. -/
example (v v' : Val) (hj : Json v) (hvv : Shuf v v') :
    (∃ r r' s1 s2, Loads Sample.W CAstrict (fresh []) v (.obj 7) r s1 ∧ Loads Sample.W CAstrict (fresh []) v' (.obj 7) r' s2 ∧ Shuf r r') ∨
    ∃ e e' s1 s2, Raises Sample.W CAstrict (fresh []) v (.obj 7) e s1 ∧ Raises Sample.W CAstrict (fresh []) v' (.obj 7) e' s2 :=
  have h := Sample.node_orderless v
  C61_json_user (C := CAstrict) notRequiredLaw steadyTags lawful rfl (.new (some []) []) hj usual_nodeA h.1 h.2.1 h.2.2.1 h.2.2.2.1
    (fun _ _ _ _ _ => rfl) h.2.2.2.2.1 h.2.2.2.2.2 hvv

example (v v' : Val) (hk : ∀ x kvs, Within v x → DictData Sample.strict x kvs → (kvs.map (·.1)).Nodup) (hvv : Shuf v v') :
    (∃ r r' s1 s2, Loads Sample.W CAstrict (fresh []) v (.obj 7) r s1 ∧ Loads Sample.W CAstrict (fresh []) v' (.obj 7) r' s2 ∧ Shuf r r') ∨
    ∃ e e' s1 s2, Raises Sample.W CAstrict (fresh []) v (.obj 7) e s1 ∧ Raises Sample.W CAstrict (fresh []) v' (.obj 7) e' s2 :=
  have h := Sample.node_orderless v
  C61_strict_user (C := CAstrict) notRequiredLaw steadyTags lawful rfl (.new (some []) []) usual_nodeA h.1 h.2.1 h.2.2.1 h.2.2.2.1
    (fun _ _ _ _ _ => rfl) h.2.2.2.2.1 (fun h => by cases h) hk h.2.2.2.2.2 hvv

end Sample
end TL
