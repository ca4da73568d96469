{
 "K31@Circuit/Model.lean": {
  "note": "equivalent for every claim: the value of the circuit is the same, only the normal form differs"
 },
 "T01@Pattern/Model.lean": {
  "theorems_tightened": [
   "C20_sound",
   "C20_complete_partial"
  ],
  "note": "the specification used the model's own look-up of keyword arguments; now HasKw, independent of it; the edit is killed"
 },
 "T20@Pattern/Model.lean": {
  "theorems_tightened": [
   "C20_pattern_eq"
  ],
  "note": "no theorem stated what equality of patterns means; added; the edit is killed"
 },
 "I04@Indexed/Model.lean": {
  "theorems_tightened": [
   "C32_merge_dicts"
  ],
  "note": "updating existing keys was not covered; added; the edit is killed"
 },
 "N3@Spin/Model.lean": {
  "theorems_tightened": [
   "C38_space"
  ],
  "note": "acceptance of spins and bases was not covered; added; the edit is killed"
 },
 "N9@Spin/Model.lean": {
  "theorems_tightened": [
   "C38_kets_in_range"
  ],
  "note": "the value is the same, but the basis state is outside of the space; added; the edit is killed"
 },
 "N11@Spin/Model.lean": {
  "note": "equivalent: the look-up of the label raises the same error"
 },
 "F05@Cache/Key.lean": {
  "theorems_tightened": [
   "C45_sets",
   "C45_dicts",
   "C45_unorderable_refuted"
  ],
  "note": "sets were not covered; while adding them the model of sorted_if_possible was corrected (an exhausted iterator gives an empty key); the edit is killed"
 },
 "Y09@Equation/Model.lean": {
  "theorems_tightened": [
   "C41_tag"
  ],
  "note": "the specification of histories used the model's own conversion of tags; added; the edit is killed"
 },
 "Z54@Print/Config.lean": {
  "theorems_tightened": [
   "C74_formats"
  ],
  "note": "no theorem said which format is the default; added; the edit is killed"
 },
 "BA23@Osc/Model.lean": {
  "theorems_tightened": [
   "C37_kets_truncated_partial"
  ],
  "note": "no theorem was about operators on basis states of a finite-dimensional space; added; the edit is killed"
 },
 "BA40@State/Model.lean": {
  "theorems_tightened": [
   "C58_equality"
  ],
  "note": "the comparison only selects between two orders of evaluation with the same value; theorem that it is equality added; the edit is killed"
 },
 "AB06@Liouv/Model.lean": {
  "note": "equivalent on the domain of the claim: for sums of the form of a Liouvillian the default is never used"
 },
 "BB13@Hilbert/ProdBasis.lean": {
  "theorems_tightened": [
   "C82_no_basis_full",
   "C82_no_basis_local"
  ],
  "note": "no theorem spoke about spaces without a basis other than products; new theorems fail on the mutant"
 },
 "BB30@Cache/AddRule.lean": {
  "theorems_tightened": [
   "C83_names"
  ],
  "note": "no theorem fixed rules() for classes without rules; new theorem fails on the mutant"
 },
 "CC72@Scalar/Root.lean": {
  "note": "equivalent: scalars commute, the order of factors does not change the value"
 },
 "DA08@Flat/Model.lean": {
  "theorems_tightened": [
   "C105_exports_partial",
   "C105_conflicts_partial",
   "C105_submodules"
  ],
  "note": "the first version of the specification (Subs.Pub, Subs.Clean, Subs.used) used the function that is edited here and would have accepted the edit; it now states include and exclude itself (Cfg.Wants), and the mutant fails"
 },
 "DA09@Flat/Model.lean": {
  "theorems_tightened": [
   "C105_exports_partial",
   "C105_conflicts_partial",
   "C105_submodules"
  ],
  "note": "the first version of the specification (Subs.Pub, Subs.Clean, Subs.used) used the function that is edited here and would have accepted the edit; it now states include and exclude itself (Cfg.Wants), and the mutant fails"
 }
}