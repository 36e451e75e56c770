{
 "selectPair|always the first component": [
  "ICPC.Props.C15_selectPair_uniform (new; before it no theorem was about selectPair)"
 ],
 "growCall|p above 1 accepted": [
  "ICPC.Props.C75_words_assertion (new)"
 ],
 "growCall|the comparison negated: not-a-number accepted": [
  "ICPC.Props.C75_words_assertion (new)"
 ],
 "Fp.exponentialIn|infinite lower accepted": [
  "ICPC.Props.C114_throws (infinite bounds added)"
 ]
}