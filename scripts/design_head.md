# Formal model of jonmaiga/tests-for-randomness in Lean 4

## Approach

The C++ sources in /repo are read as text and transcribed function by function into Lean
definitions (`lean/Verif/Model/*.lean`), each citing the file and lines it models. Specifications
that say in plain mathematical terms what a function should do live in `lean/Verif/Spec/*.lean` (or at
the head of the property file when a line or two), helper lemmas in `lean/Verif/Lemmas/*.lean`, and the
property theorems in `lean/Verif/Props/*.lean`. Theorem `Cnn_…` belongs to property `Cnn` of
`properties.jsonl`; each is followed by an `example` that exhibits a non-trivial instance of its
hypotheses. `MANIFEST.json` lists the theorems per property, `AXIOMS.md` the axioms each depends on.

### Conventions

* A value of type `uintW_t` is a `BitVec W`; arithmetic wraps exactly as C++ unsigned arithmetic.
  Where integral promotion matters (8/16-bit types compute in `int`) the model computes in `Int` or at
  32 bits and signed overflow is a fault.
* Undefined behaviour and exceptions are outcomes of `R α = Except Fault α`: `oobIndex`,
  `shiftTooLarge`, `divByZero`, `signedOverflow`, `emptyDeref`, `badCast`, `thrown`. The project's
  `assertion` macro is *not* a fault: in a development build it prints a message and execution
  continues, in a release build it is a no-op (assertion.h/.cpp). So the model never relies on it.
* Mutable captures of lambdas become explicit state; loops become folds or structural recursion.
  Loops that may run for ever are given with fuel (`none` = still running) or as partial fixpoints,
  so that termination is something to prove.
* A `stream` is a state machine (`Stream w`: a state type, a state and a step), so a property "for
  every stream" covers every C++ callable whose captures are its state.
* `double`: (a) exact, over ℝ or ℚ or any field `K` (this is the default and is said in the comment
  of the definition); (b) where the property is about rounding, explicit round-to-nearest-even with 53
  bits over ℚ (`Model/Float`): rescaling of words to [0,1), bin/gap/coupon indices, binomial
  coefficients. No claim is made on the rounding error of case (a),
  except where C120 gives one (Model/Rounded).
* `std::sort` is a relation: any sorted permutation of the data.
* Threads: a small-step relation with nondeterministic scheduling (`Model/Jobs`), one step per access
  to the shared state under the mutex; sequential consistency is justified by the mutexes (trusted).
* The console is not modelled, except where a property is about the lines printed (-inspect,
  -exhaust). Text files are `String → Option String`; writes succeed.
* Calibration (C100–C104): `average` is the plain average over the finite set of *all* inputs of the
  given length, written out in `Spec/Average.lean`; no probability theory is assumed.

## Plan per property

| id | property | model and proof |
|----|----------|-----------------|
