{"M13": {"tightened": ["TL.C10_sturdy"], "note": "C10_union_complete_partial takes 'members raise only TypedloadExceptions' as a hypothesis, which the edited program violates; C10_sturdy (added) derives it from the types."}, "M38": {"tightened": ["TL.C44_back", "TL.C44_keys"], "note": "C44 had no theorem yet when this was run."}, "M72": {"tightened": ["TL.C32_path"], "note": "the theorems of that snapshot mentioned the path only through the model's own renderPath; C32_path (added) spells it out."}}