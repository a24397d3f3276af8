# Formal model of hmcol/algeo in Lean 4 — design

## 1. What is modelled

The crate is pure: number types, multivariate polynomials with Gröbner bases, matrices with
Gaussian elimination, a cone constructor, text rendering, and a small `main`. Every non-test
function is modelled; each definition cites its file and lines.

| source | model |
|--------|-------|
| `core/num/int.rs` | `Num/Int.lean` |
| `core/num/rat.rs`, `core/num/traits.rs` (`Rational`) | `Num/Rat.lean`, `Num/Field.lean` |
| `core/num/traits.rs` (`f32`, `f64`) | `Num/F64.lean` |
| `poly/mdeg.rs`, `poly/ord.rs`, `poly/elts.rs`, `poly/comp.rs` | `Poly/MDeg.lean`, `Ord`, `Elts`, `Comp` |
| `poly/display.rs`, `poly/macros.rs` (`fn_vars!`), `main.rs` | `Poly/Display.lean`, `DisplayF64`, `Main` |
| `linalg/mat.rs`, `util.rs`, `algorithm.rs`, `cone.rs` | `LinAlg/Mat.lean`, `Display`, `DisplayF64`, `Util`, `MatIter`, `Algorithm`, `Cone` |

* A call has three possible outcomes: it returns, it panics, or it runs forever.
  `Res α = ok a | panic p | diverge` (`Verif/Res.lean`). Every function that can panic or loop
  returns a `Res`. `while`/`loop` is `Res.loop`, a least fixed point: no fuel appears in statements.
* `Build = debug | release` is the compilation profile. Integer arithmetic (`i64` in `Integer`,
  `u8` degrees, `usize` indices of 64 bits) is mathematical arithmetic followed by a range check that panics
  (debug) or wraps around (release).
* The Rust trait `Field` is the class `RField F` (operations only, as in Rust). `LawfulRField F K`
  says what an implementation must satisfy: a map `val : F → K` to a mathematical field under which
  each operation, *when it returns*, is exact; plus which panics are allowed. Instances:
  `Rational` in a debug build (`K = ℚ`, allowed panic: `i64` overflow) and every exact field
  (`K` itself, no panic allowed).
* `f32` and `f64` are the type `Flt` of signed zeros, finite numbers, infinities and NaN, for the two
  formats `Fmt = f32 | f64` (binary32 and binary64; theorems with `[Fmt]` hold for both), with
  correctly rounded operations computed on integers. That rounding is to nearest with ties to even
  is proved (`add_nearest`, `mul_nearest`, `div_nearest`, `roundNat_even`, `round_inf_iff`), so the
  model does not rest on the algorithm chosen. It satisfies no field law; what the generic code
  guarantees without laws is proved for every coefficient type (`Tame`, `Mat.Shape`, `Canonical`).
* A contract `Spec E x P` means: `x` terminates, any returned value satisfies `P`, and any panic is
  one of `E`. With `E = ∅` it is total correctness.

## 2. Trusted base

* Lean 4.33.0 kernel, and Mathlib's definitions where statements use them (`MvPolynomial`,
  `MonomialOrder`, `Ideal`, `Matrix`, `ℚ`, ...).
* Axioms: every theorem depends on at most `propext`, `Classical.choice` and `Quot.sound`. No axiom
  is added, and neither `sorry`, `native_decide` nor `bv_decide` is used. Runs of the model on
  concrete data are evaluated by the kernel (`decide`, `decide +kernel`, `rfl`).
* The reading of the Rust source into the model.
* Semantics of Rust, `std` and `itertools` that are modelled rather than proved: `Iterator::max_by`
  (last maximum), stable `sort_by`, `rposition`, `zip`, `zip_longest`, `cartesian_product`,
  `combinations` (lexicographic index order), `chunks_exact_mut`, `i64::pow`, truncating `%` and
  `/`, `Vec::remove`, `HashSet` as a set with unspecified iteration order, `Display` of integers
  and of `f32` and `f64` (shortest digits that round back, as in `flt2dec`; ties go up),
  `{:?}` of lists, of derived structs and of `f32` and `f64` (with exponents as since Rust 1.58), and the `xops` `binop` macro (owned/borrowed variants of an
  operator are the same function). Arithmetic of `f32` and `f64` is IEEE 754 binary32 and
  binary64, round to nearest.
* Simplifications stated at the definitions: degrees and indices are naturals with range checks at
  the operations; iterators are the lists of their items; panic messages carry no formatted
  arguments; sorting is insertion sort. That insertion sort, the exact power, the
  bounded loop of `gcd`, adding a term in one pass and reading a column before comparing do the same as
  the loops of the source and of `std` is proved in `Props/Literal` (C193, C194). The sum of an iterator of
  floats starts from `0.0`; recent versions of `std` start from `-0.0`, which changes at most the sign of
  a zero sum.
* Not modelled: sign and payload of a NaN, `powi` of `f32` and `f64` (a parameter of
  the model: its precision is unspecified in Rust; C232 takes the function of LLVM's runtime library for it), formatter flags other than `#`
  (only the `Display` of `Mat` and the derived `Debug` implementations pass flags on, and `LinAlg/DebugPretty` models them with `#`; the others write
  their parts with `{}`), memory exhaustion.

## 3. Method per property

| id | model | method |
|----|-------|--------|
| C01–C02, C82 | `Num/Int` | Euclid invariant; sign analysis; counterexample for the documented sign of `lcm` |
| C03–C11, C80, C81, C83, C84 | `Num/Rat` | value map to `ℚ`; invariants over operation histories; counterexamples by computation; exact failure conditions |
| C12 | `Num/Field`, `LinAlg/Util` | fold invariant of `max_by` |
| C13, C76 | all | refinement debug ⊑ release, operation by operation and lifted to the library |
| C14–C19 | `Poly/MDeg` | exponent function `i ↦ m_i`; induction on the lists |
| C20–C23 | `Poly/Ord` | comparison with Mathlib `MonomialOrder`; Dickson's lemma for well-foundedness |
| C24–C33 | `Poly/Elts` | denotation in `MvPolynomial`; canonical-form invariant; induction over expression trees |
| C34–C41 | `Poly/Comp` | loop invariant and well-founded measure for `divide` |
| C42–C49 | `Poly/Comp` | Buchberger's criterion proved on top of Mathlib's S-polynomials; Noetherianity for termination |
| C50–C58 | `LinAlg/Mat` | representation relation with Mathlib `Matrix` |
| C59–C67 | `LinAlg/Algorithm` | loop invariants of the elimination; Mathlib rank/kernel |
| C68–C70 | `LinAlg/Util`, `MatIter` | induction; digits |
| C71–C72, C77–C78 | `LinAlg/Cone` | corollaries of C59–C65; counterexamples |
| C73–C75, C79, C85, C86 | `Poly/Display`, `LinAlg/Display`, `Poly/Main` | injectivity of the rendering; evaluation |
| C87, C92 | `LinAlg/Algorithm` | simulation and shape invariants without field laws |
| C88–C91, C93, C96 | `Num/F64` | rounding lemmas; concrete counterexamples in both formats |
| C94, C95 | `Poly/Elts`, `Poly/Comp` | canonical form and reducedness without field laws; divergence by induction on iterations |
| C97–C107 | `Poly/Comp` | the specification of the algorithm combined with ideal theory (Nullstellensatz, elimination, Macaulay's theorem) |
| C110–C113 | `LinAlg/Algorithm` | inverse, solving, determinant, exact form of kernel and range vectors, from the echelon form |
| C114, C115 | `LinAlg/Cone` | exact facets via the form of the kernel; Farkas' lemma and the fundamental theorem of linear inequalities |
| C117–C119 | `LinAlg/Mat`, `LinAlg/MatIter` | case analysis on the indices; induction on the number of items |
| C120–C123 | `Poly/Comp`, `Poly/Elts` | invariant of the division loop; leading monomials that differ cannot cancel; induction on the right operand |
| C124, C125 | `Poly/Comp` | the first pair found by each scan; invariants listing the elements kept so far |
| C126 | `LinAlg/Cone` | inversion of the run, no field laws |
| C127, C128 | `Poly/DisplayF64` | spacing of floating point numbers, monotone rounding; injectivity of the rendering |
| C129, C130 | `Num/F64`, `LinAlg/Mat` | half a unit in the last place is at most `2^-53` (`f32`: `2^-24`) of the value; induction over the sum |
| C131 | `LinAlg/Algorithm` | the error of each elimination step, accumulated over the steps; no zero pattern is needed |
| C132 | `Poly/Elts` | the coefficient at a multidegree goes through the additions of C130, possibly skipping zeros |
| C133–C137 | `Poly/Comp` | programs on top of the library (in `Props/IdealOps`); localization for saturations, substitution of 0 and 1 for intersections, C101 to eliminate the variable |
| C138, C139 | `LinAlg/Algorithm` | both matrices of a form are the two parts of one matrix, to which the invariant of C131 applies; for `to_rref` the same with the multipliers above the diagonal |
| C140–C142 | `Poly/Comp` | components of a reduced basis element lie in the ideal; independence of characters for the number of solutions; C106 restricted to a subspace for Hilbert functions |
| C143, C144 | `Poly/Comp` | programs on top of the library (in `Props/PolyMap`); the ideal of the graph is the kernel of the substitution, then C101 and uniqueness of remainders |
| C145 | `Poly/Comp`, `LinAlg/Algorithm` | the nonzero rows of an echelon form are a reduced Gröbner basis of linear forms; uniqueness of reduced bases |
| C146, C147 | `Poly/Comp` | programs in `Props/Coprime`; C48 for each polynomial; the product criterion from Buchberger's |
| C148, C149 | `Poly/Elts`, `LinAlg/Eq` | `==` unfolded; values of floats (`Props/Equality`) |
| C150 | `LinAlg/Algorithm` | the loops of C59–C62 with the invariant that nothing has changed (`Props/Fixed`) |
| C151 | `Num/Rat` | the unreduced fraction bounds every intermediate number (`Props/Sums`) |
| C152, C153 | `Poly/Comp` | C106, C141, the Nullstellensatz and lying over (`Props/Finite`) |
| C154 | `Poly/Comp` | homomorphisms from a finite algebra to the closure, grouped by maximal ideal (`Props/Count`) |
| C155, C156 | `Poly/Comp`, `Poly/MDeg`, `Num/F64` | invariants of the endless loops; C76 and C108 for the partial claims (`Props/Endless`) |
| C157 | `Poly/Elts`, `Poly/Comp`, `Poly/MDeg` | values at points with `a_i^256 = 1` in any algebra over the field (`Props/Unchecked`) |
| C158, C159 | `Num/Int`, `Num/Rat` | congruences modulo `2^64`; C84 for the partial claim (`Props/Wrapping`) |
| C160 | `Poly/Ord`, `Poly/MDeg` | total degrees modulo 256 (`Props/OrdWrap`) |
| C161 | `LinAlg/Algorithm`, `Num/Rat` | the loop invariants of elimination with bounds on numerators and denominators (`Proofs/Sized`, `Props/ElimBound`) |
| C162 | `Poly/Comp`, `Poly/Ord` | the loops of C42–C46 in a region of exponents on which the order does not panic (`Proofs/Buchberger`, `Props/Total`) |
| C163 | `LinAlg/Util`, `LinAlg/MatIter` | the iterators of C68 and C119 with arithmetic modulo `2^64` (`Props/IterWrap`) |
| C164 | `Poly/Comp`, `LinAlg/Algorithm`, `LinAlg/Cone` | sets of coefficients closed under the operations (`Proofs/Closed`); the sets given by subrings and subfields of the field of values (`Props/Closed`) |
| C165 | `Poly/*`, `LinAlg/Algorithm`, `LinAlg/Cone` | maps of coefficients and multidegrees commute with every routine, as equalities of outcomes (`Proofs/Embed`); inserting a variable is such a map (`Proofs/Insert`) |
| C166 | `LinAlg/Cone`, `LinAlg/Algorithm` | the data of C112 and C114 are determined by the kernel and the rays (`Props/ConeOrder`) |
| C167, C168 | `Poly/Comp` | C140 for the grading of the monomials by their classes modulo the ideal (`Props/Binomial`) |
| C169 | `Poly/Comp` | a leading monomial of a reduced basis divided by a variable is standard (`Props/Corner`) |
| C170, C171 | `Poly/Elts`, `Poly/Comp` | the same invariants for arbitrary lists of terms; invariant of the endless run (`Props/Raw`) |
| C172 | `Num/F64` | case analysis (`Props/F64Special`) |
| C173 | `LinAlg/Algorithm` | the loops computed from the outcomes of the zero test (`Props/ReadOut`) |
| C174 | `Poly/Display` | a reader of the notation, independent of the model (`Props/ReadBack`) |
| C175 | `Poly/Comp` | invariants of the three loops in terms of denotations; `decide` for the witness (`Props/RawBuchberger`) |
| C176 | `Poly/DisplayF64` | the reader of C174 with decimal numbers (`Props/ReadBackFloat`) |
| C177 | `Poly/Comp` | C12 and elimination (`Props/Multiplication`) |
| C178 | `Poly/Comp` | Macaulay's basis (C106), matrices of left multiplication, conjugate roots (`Props/Multiplication`) |
| C179 | `LinAlg/Cone` | elimination with bounds (`Proofs/Sized`), exact rank and kernel (`Props/ConeSmall`) |
| C180 | `LinAlg/Cone` | C115 and Farkas' lemma in both directions (`Props/ConeDual`) |
| C181 | `Poly/Comp` | C36, C38, C41, C120; induction on the largest monomial of the products and the number of times it occurs (`Props/Syzygies`) |
| C182 | `LinAlg/Mat`, `LinAlg/Algorithm`, `LinAlg/Display`, `LinAlg/Eq` | two runs compared step by step (`Imp` in `Props/Surplus`) |
| C183 | `Poly/MDeg`, `Poly/Elts`, `Poly/Comp` | invariant of every step on sets of exponents closed under sum and difference (`Props/Exponents`) |
| C184 | `Poly/Comp` | Buchberger's criterion for the union (converse of it for each part, product criterion across), uniqueness of reduced bases (`Props/Disjoint`) |
| C185 | `Poly/Comp` | a support-preserving automorphism, uniqueness of divisions and of reduced bases (`Props/Rescale`) |
| C186 | `Num/Rat`, `Num/F64`, `Poly/Elts`, `Poly/Comp` | sum of absolute values of all coefficients as a loop invariant, passes counted by monomials (`Proofs/IntDivide`, `Props/IntDivide`) |
| C187 | `Num/Rat`, `Num/F64`, `Poly/Elts`, `Poly/Comp` | shapes of dividend and remainder as loop invariants, quotients never merge terms (`Proofs/Pure`, `Props/Pure`) |
| C188 | all but `Poly/Main`, `LinAlg/Display` | the relation `Sim` between two runs, through every definition (`Proofs/Simulate`, `Props/Simulate`) |
| C189 | `Num/F64`, `Poly/Elts`, `Poly/Comp`, `LinAlg/*` | `Sim` between the checked and the real operations, with the termination of the checked runs (`Props/SimFloat`) |
| C190 | `Poly/Comp` | from the uniqueness conditions of the division (C120) and the degree bound (C38) (`Props/Terms`) |
| C191 | `LinAlg/Mat`, `LinAlg/Cone` | the sizes of the computed kernel vectors, without laws for the coefficients (`Props/ConeShape`) |
| C192 | `Num/Rat`, `Num/F64`, `Poly/Elts`, `LinAlg/Mat` | the terms of sums from C123, the cells of products one by one (`Props/Commute`) |
| C193, C194 | `Poly/Comp`, `Num/Int`, `Poly/Elts`, `LinAlg/Algorithm` | the loops of the source and of `std` beside the definitions of the model; uniqueness of stable sorting (`Props/Literal`) |
| C195, C196 | `LinAlg/Algorithm`, `LinAlg/Mat` | the documented identities as programs that call the operators of the library (`Props/Checks`) |
| C197 | `Poly/Comp`, `Poly/Ord` | for homogeneous generators the last variable divides a polynomial exactly when it divides its leading term for `GRevLex` (`Props/LastVar`) |
| C198 | `Poly/Comp`, `Poly/Ord`, `Poly/Elts` | relational: if the operations on multidegrees respect a relation, all routines do (`Proofs/Relate`, `Props/Rename`) |
| C199, C200 | `Poly/Comp`, `Poly/Elts`, `Poly/Ord` | polynomials with the same terms of every multidegree in the same order are not told apart (`Proofs/Alike`, `Props/Reorder`) |
| C201 | `Poly/Comp`, `Poly/MDeg` | two runs side by side; `checked_sub` succeeds exactly when `is_succ` holds (`Props/Unused`) |
| C202 | `LinAlg/Cone` | the recorded normals in terms of the cone only: on a proper supporting hyperplane through its face, on the whole cone by exchanging generators (`Props/ConeSame`) |
| C203 | `Num/F64`, `Poly/Elts` | the relative error of a sum is below one half; the terms of a difference (`Props/Difference`) |
| C204 | `Poly/Comp`, `Poly/Ord` | among monomials of one degree `GRevLex` compares the parts without the last variable (`Props/Affine`) |
| C205 | `LinAlg/Algorithm`, `LinAlg/Mat` | C52, C53, C62–C65 and the rank theorems of Mathlib (`Props/Ranks`) |
| C206 | `LinAlg/Cone`, `LinAlg/Mat` | C115 and C180; the sum of the generators is orthogonal to no facet (`Props/ConeInside`) |
| C207 | `LinAlg/Display`, `LinAlg/DisplayF64` | the digits of C127, parts of the text and a reader (`Props/MatDisplayF64`) |
| C208 | `LinAlg/Display`, `LinAlg/Debug` | where a text ends can be seen from the text (`Props/DebugText`) |
| C209 | `Poly/Comp`, `Poly/Ord` | degrees modulo 256 through every step of two runs (`Props/SameDegree`) |
| C210, C211 | `Poly/Elts`, `Poly/Comp`, `Num/F64` | two runs on coefficients that differ by factors (`Proofs/Weigh`, `Proofs/Character`, `Props/Signs`) |
| C212 | `LinAlg/Algorithm`, `Num/F64`, `Num/Rat` | two runs on matrices that differ by factors of rows and columns (`Proofs/WeighMat`, `Props/SignsMat`) |
| C213 | `Num/Prims`, `Num/F64` | instantiating at the neutral elements; rounding is exact on representable products |
| C214 | `LinAlg/Mat` | induction over expressions (C51–C54) |
| C215 | `Poly/Comp` | C43, C44 with `Ideal.span_union` and `Ideal.span_mul_span'` |
| C216 | `Num/F64`, `Poly/Comp` | `Proofs/Weigh` with powers of two for factors; rounding commutes with powers of two |
| C217 | `Poly/Comp`, `Poly/Elts`, `Poly/Ord` | the programs of C137 and C146; the leading monomial of `x_k - h` |
| C218 | `Poly/Comp`, `Poly/Elts`, `Poly/Ord` | the ideal of the graph over `I`; elimination; C153; Nullstellensatz |
| C219 | `Poly/Comp`, `Poly/Elts`, `Poly/Ord` | the programs of C133–C135 and C215; Nullstellensatz; minimal polynomials of the values of `f` |
| C220 | `Poly/Comp`, `Poly/Elts`, `Poly/Ord` | C135 repeated; evaluation at the points is onto, so the dimension of the quotient is their number |
| C221 | `Poly/Comp`, `Poly/Ord` | the standard monomials are the powers of `x_n` below the number of solutions; uniqueness of reduced bases up to constants |
| C222 | `LinAlg/Algorithm`, `Num/F64` | negation is exact; C138 and C139 applied to a vector in the kernel of the reduced form |
| C223 | `Poly/Comp`, `Poly/Ord` | standard monomials are a basis of the quotient for each order; reduction with the second order ends in standard monomials of the first |
| C224 | `LinAlg/Cone`, `LinAlg/Algorithm`, `Num/F64` | C126 says how the facets arise; C130 and C222 bound the products; scaling by minus one is exact |
| C225 | `LinAlg/Algorithm`, `Num/F64` | both loops read the same cells and apply the same row operations; the updates of p and l never fail |
| C226 | `Poly/Computer`, `Poly/Order` | the part of degree at most d in x_0 of a Gröbner basis for Lex represents all elements of this degree; cross multiplication of the least element with non-vanishing leading coefficient |
| C227 | `Poly/Comp`, `Num/F64` | backward induction along the states of the loop: finite results come from finite arguments; the error of a step is that of one product and one difference per monomial and one addition to the quotient, while moving a term to the remainder is exact (C229) |
| C228 | `Poly/Elts`, `Num/F64` | induction from the right on the factors of a term and on the terms, with one rounding per step; the accuracy of `powi`, which is a parameter of the model, is a hypothesis |
| C229 | `Poly/Comp`, `Num/F64` | loop invariant: the monomials of the dividend stay below those of the remainder and below the products of quotient terms with leading monomials |
| C230 | `Poly/Comp`, `Num/F64` | a leading coefficient that does not cancel becomes smaller in absolute value (relative error below 1/16 per operation), so the pair of leading monomial and coefficient descends; the ideal of leading monomials ascends (`Proofs/Ends`, `Proofs/Shrink`) |
| C231 | `LinAlg/Algorithm`, `Num/F64` | the pivot is the greatest entry of its column and at least EPSILON, so the remaining entries grow at most by 9/4 in a step and scaling multiplies by at most 2^prec; then C131 |
| C232 | `Poly/Elts`, `Num/F64` | invariant of the squaring loop: both variables are near powers of the argument, with two roundings' worth of error per factor; C228 with the resulting accuracy of powi |
| C233 | `LinAlg/Algorithm`, `Num/F64` | two runs related by factors for rows and columns; rounding commutes with powers of two within the range; only entries with a common factor are compared |
| C234 | `LinAlg/DebugPretty` | where a text ends can be seen if a comma follows; indentation is injective and keeps the ends of lines (`Props/DebugPretty`) |
| C235 | `Poly/Comp`, `Poly/Ord` | elimination and Hilbert's Nullstellensatz; for finite projections points with the same equations are conjugate (`Props/Projection`) |
| C236 | `Poly/Comp`, `Poly/Elts` | all leading monomials of a principal ideal are multiples of that of its generator; unique factorisation (`Props/Gcd`) |
| C237 | `Poly/Comp`, `Poly/Elts` | C144 for the variables; a surjective endomorphism of a noetherian ring is injective (`Props/PolyInverse`) |
| C238 | `Poly/Comp`, `Poly/Elts` | C134, C135 and C137 for the generators; an ideal with finitely many generators in the radical has a power in the ideal (`Props/IdealQuotients`) |
| C239 | `LinAlg/Mat`, `LinAlg/Algorithm` | C51, C64 and C65; a subspace is the set of the vectors orthogonal to its orthogonal ones, by dimensions (`Props/Subspaces`) |
| C240 | `LinAlg/Mat`, `LinAlg/Algorithm` | C52, C53 and C110 for the normal equations; they are solvable because A and its transpose times A have the same rank (`Props/LeastSquares`) |
| C241 | `LinAlg/Mat`, `LinAlg/Algorithm` | C52, C53 and the form of the reduced row echelon form with a pivot in every column (`Props/MatInverse`) |
| C242 | `Poly/Comp`, `LinAlg/Mat`, `LinAlg/Algorithm` | C107 and C239; the derivatives at the origin of a member of the ideal are combinations of the vectors (`Props/LinearForms`) |
| C116 | `Num/Rat`, `Poly/Elts`, `LinAlg/Mat` | the tracking of C109, for any arithmetic that is exact on small integers (`Proofs/IntData`) |
| C108, C109 | `Num/F64` | a checked field over the floats refined by the plain one; tracking of the sum of absolute coefficients |

All properties can be expressed in the model; none is "not applicable". A property that is false
has a theorem `CNN_refuted` with a concrete witness, `CNN_…_partial` theorems for what does hold,
and status "partial".

## 4. Where the code disagrees with its documentation or intent

* `Integer::lcm` is negative for arguments of opposite sign and panics on `(0, 0)`;
  `gcd(i64::MIN, -1)` panics in every build, `gcd(i64::MIN, 0)` is `i64::MIN` in release.
* `Rational` `+` and `-` do not reduce (`1/2 + 1/2 = 4/4`), so `==` on results is not equality of
  values (nor is `==` of matrices), `Ord` is inconsistent with `Eq`, and a sum of fifty-nine halves
  overflows. `recip(0)` is `0/0`. `pow` casts the exponent to
  `u32`, and a negative exponent of a negative base leaves a negative denominator.
* The comment on `StabilityCmp for Rational` says the largest |n|+|d| is preferred; the code
  prefers the smallest. `ZERO` compared with `ZERO` is `Less`.
* Without overflow checks `1/2^32 + 1/2^32` is `2^33/0`, the product of the same numbers panics, and
  `Rational::new(1, i64::MIN)` has a negative denominator and the wrong sign.
* `MultiDegree::trim_zeros` leaves an all-zero vector as it is. Degrees wrap at 256 in release, and
  total degrees above 255 make the graded orders panic (debug) or compare wrongly (release); a
  wrapped multidegree can make `divide` and `buchberger_algorithm` run forever in release.
* `Polynomial::new` does not merge equal multidegrees; `divide` of `new([2x, 3x])` by `x` never ends
  (over `Rational`: overflows), nor does `divide` of a polynomial whose leading coefficient is zero.
* `Eq` is implemented for terms over any coefficients; with a NaN coefficient it is not reflexive.
* `buchberger_algorithm` never makes the input generators monic, so the result need not be a reduced
  basis; a zero polynomial among two or more generators makes it and `buchberger_criterion` panic.
  From `x` and `new_unchecked([0 x², y])` it returns only `x`, and `buchberger_criterion` accepts them.
* `Mat::replacement(n, s, s, x)` scales row `s` by `x` where `replace_row` scales by `1 + x`.
  `get_col_iter_mut` cuts the entries into chunks of `rows` instead of `cols`.
  `from_row_vectors(&[])` and `from_col_vectors(&[])` panic.
* `Cone::new` panics when the generators span less than a plane, misses a facet through the first
  generator depending on the sign of the computed normal, and gives improper facets to cones that are
  not full-dimensional. Over `f32` and `f64` it also misses facets whose generators have a negative product with
  their normal by rounding: one of three for `(1, 0, 0)`, `(3, -1, 2)`, `(0, 7, 1)`.
* `Display` of a multidegree has an unreachable branch for `w`; the names of `fn_vars!` for indices
  3, 4, 5 differ from the displayed ones. Displaying a non-leading coefficient with numerator
  `i64::MIN` overflows; without overflow checks `x - 2^63` displays as `x - -9223372036854775808`.
* `num_to_seq` never ends in base 1 and multiplies before dividing, so it overflows early;
  `mat_iterator` truncates the exponent to 32 bits.
* Over `f64`: `49 * (1/49) ≠ 1` (over `f32`: 41), so elimination of `[49; 49]` gives rank 2 and `nullity` underflows;
  finite matrices can make `lu` panic on NaN (not with moderate entries, C231); `divide`, `buchberger_algorithm` and
  `buchberger_criterion` can run forever, though only where something overflows or underflows (C230); products can contain zero
  terms; `epsilon_equals` is not transitive, and on matrices compares the squared norm. Its threshold is absolute,
  so a matrix can have another rank than its product with a power of two, and `compute_kernel` returns `(-1, 1)` for the
  row `EPSILON / 2, 2 EPSILON`. The identity
  `(p * self).epsilon_equals(l * u)` documented at `lu` fails for the row `3, 7·2^40`. Products of polynomials and their values depend on the
  order in which the terms are stored.

## 5. Validation of the model against the crate's tests

`Props/Tests.lean` runs the crate's own unit tests on the model (checked by the kernel, both build
profiles): all assertions on literal values, the printed Gröbner bases, and single cases of the four
tests that enumerate families. `Proofs/Run.lean` provides loops cut off after `n` iterations with the
theorem that a run which ends within them is a run of the routine. The enumerating elimination tests
were also evaluated (not proved) on the model outside the build, without a failing case.
