{"N49": {"tightened": [], "note": "equivalent edit: the handler of the basic types raises only typedload's exceptions, so StopIteration never comes out of it and the two loops return the same; nothing to tighten."},
 "N50": {"tightened": ["TL.C15_distinct"], "note": "the C15 theorems described the result of a set through the model's own deduplication; C15_distinct (added) says it without: pairwise different, every outcome represented."}}
