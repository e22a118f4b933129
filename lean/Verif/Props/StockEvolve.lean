import Verif.Props.Stock
import Verif.Props.Evolve
/-!
# Newer programs, with handlers of the user for other types
-/

namespace TL

variable {W : World} {C : Config} {V : Nat → Nat → Prop}

/-- **C57** With handlers of the user for other types, in both programs: what the old program loads, the new one loads. -/
theorem C57_evolution_user (h1 : W.NotRequiredLaw) (h2 : W.SteadyTags)
    {s s' : LState} (hs : UsualHistory W C s) (hs' : UsualHistory W C s') {v r : Val} {t t' : Ty} {s1 : LState}
    (hus : ∀ u, Meets W C s t u → C.Usual W u) (hus' : ∀ u, Meets W C s' t' u → C.Usual W u)
    (hatt : ∀ c, Uses W (namesIn W s t) t (.obj c) → (W.cls c).kind = .attrs → ∀ f ∈ (W.cls c).fields, ∃ t, FieldTy .attrs f t)
    (hV : ∀ c d, V c d → NewerClass W C.stock V (namesIn W s t) (namesIn W s' t') c d)
    (hnew : Newer W C.stock V (namesIn W s t) (namesIn W s' t') t t')
    (hnames : NewerNames W C.stock V (namesIn W s t) (namesIn W s' t') t)
    (hold : OldData W C.stock V (namesIn W s t) v t)
    (hst : Steady W C.stock (namesIn W s t) v t) (hst' : Steady W C.stock (namesIn W s' t') v t')
    (hl : Loads W C s v t r s1) : ∃ r' s2, Loads W C s' v t' r' s2 ∧ Grown W V r r' := by
  obtain ⟨a1, _, _⟩ := C83_stock hs hus v
  obtain ⟨b1, _, _⟩ := C83_stock hs' hus' v
  simp only [b1]
  exact C57_evolution C.stock_default h1 h2 (C83_stock_state hs) (C83_stock_state hs') hatt hV hnew hnames hold hst hst' ((a1 _ _).1 hl)

namespace Sample

/-- `l.handlers.append((lambda t: True, lambda l, v, t: v))` -/
def CA : Config := { handlers := defaultHandlers ++ [(.custom 1, .custom 1)] }

theorem meets_evo {i : Nat} (hi : i = 0 ∨ i = 1) {u : Ty} (h : Meets WV CA (fresh []) (.obj i) u) :
    u = .obj i ∨ u = .prim .int ∨ u = .union [.fref "Node", .prim .none] ∨ u = .fref "Node" ∨ u = .prim .none ∨ u = .prim .str ∨ ∃ vs, u = .lit vs := by
  induction h with
  | self => exact Or.inl rfl
  | known h => obtain ⟨fr, h1, h2⟩ := h; simp [fresh] at h1; subst h1; cases h2
  | @custom k x u y w hin _ ha ih =>
    have : k = 1 := by obtain ⟨c, hc⟩ := hin; simp [CA, defaultHandlers] at hc; exact hc.2
    subst this
    cases ha
  | union _ hu ih =>
    simp at ih; subst ih
    simp at hu; rcases hu with rfl | rfl <;> simp
  | field _ hf ht ih =>
    simp at ih; subst ih
    rcases hi with rfl | rfl
    · have hf' : _ ∈ clsOld.fields := hf
      simp [clsOld] at hf'
      rcases hf' with rfl | rfl | rfl <;> cases ht <;> first | (simp; done) | contradiction
    · have hf' : _ ∈ clsNew.fields := hf
      simp [clsNew] at hf'
      rcases hf' with rfl | rfl | rfl | rfl <;> cases ht <;> first | (simp; done) | contradiction
  | _ => rename_i ih; simp at ih

theorem usual_evo {i : Nat} (hi : i = 0 ∨ i = 1) (u : Ty) (hu : Meets WV CA (fresh []) (.obj i) u) : CA.Usual WV u := by
  rcases meets_evo hi hu with rfl | rfl | rfl | rfl | rfl | rfl | ⟨vs, rfl⟩
  · rcases hi with rfl | rfl <;> rfl
  all_goals rfl

/-- C57: whatever the data, with a handler of the user at the end of the list. -/
example (v r : Val) (s1 : LState) (hk : ∀ kvs, Within v (.dict kvs) → (strKeys kvs).Nodup ∧ "tag" ∉ strKeys kvs) (hns : ∀ kvs, ¬ Within v (.ns kvs))
    (hl : Loads WV CA (fresh []) v (.obj 0) r s1) : ∃ r' s2, Loads WV CA (fresh []) v (.obj 1) r' s2 ∧ Grown WV VE r r' :=
  C57_evolution_user (V := VE) (C := CA) evo_laws.1 evo_laws.2 (.new (some []) []) (.new (some []) []) (usual_evo (Or.inl rfl)) (usual_evo (Or.inr rfl))
    evo_attrs (fun c d h => evo_class h) (.obj ⟨rfl, rfl⟩) evo_names (evo_data hk hns) (evo_steady (Or.inl rfl) v) (evo_steady (Or.inr rfl) v) hl

end Sample
end TL
