{
 "m009": [
  "C45_isrounds"
 ],
 "m012": [
  "C52_injective",
  "C52_injective_12"
 ],
 "m203": [
  "C24_decrement_first"
 ],
 "m605": [
  "C72_module",
  "C72_module_error"
 ],
 "m624": [
  "C74_arguments_exit"
 ],
 "m659": {
  "theorems": [],
  "note": "with one hunt bell, which the theorems of C80 are about, the edited loop is the same program"
 },
 "m682": {
  "theorems": [],
  "note": "the limit on long leads is outside the claim of C82 (see DESIGN.md)"
 },
 "m693": {
  "theorems": [
   "C90_start"
  ],
  "note": "the model was run only without --start-at; C90 added"
 },
 "m755": [
  "C88_units",
  "C88_read"
 ],
 "m756": [
  "C88_units",
  "C88_read"
 ],
 "m562": {
  "theorems": [],
  "note": "the same program: the token is tried only where the text begins with both characters"
 },
 "m614": {
  "theorems": [],
  "note": "which patterns are refused is outside the claim, which is about patterns that are accepted"
 }
}