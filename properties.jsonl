{"id": "C01", "title": "Integer::gcd is the greatest common divisor", "statement": "For every pair of i64 values, Integer::gcd terminates; with overflow checks whatever it returns is the nonnegative greatest common divisor; it returns the gcd in both builds whenever neither argument is i64::MIN (without checks, a gcd of 2^63 wraps to i64::MIN, and (MIN,-1), (-1,MIN) panic in both builds).", "quantifier": "all pairs of i64 values, both build profiles", "why_tests_cant": "2^128 input pairs; Euclid's loop has input-dependent length", "anchors": ["src/core/num/int.rs::Integer::gcd"]}
{"id": "C02", "title": "Integer::lcm is the least common multiple", "statement": "Integer::lcm(a,b) is the smallest nonnegative integer that both a and b divide.", "quantifier": "all pairs of i64 values whose lcm fits in i64", "why_tests_cant": "unbounded input pairs; the documented sign convention must hold for every sign combination", "anchors": ["src/core/num/int.rs::Integer::lcm"]}
{"id": "C03", "title": "Rational::new normalises", "statement": "For every numerator and nonzero denominator, Rational::new (and new_i64) returns a fraction of the same value in lowest terms with positive denominator, and a zero denominator panics instead of producing a value.", "quantifier": "all pairs of i64 values (away from i64 overflow)", "why_tests_cant": "2^128 pairs", "anchors": ["src/core/num/rat.rs::Rational::new", "src/core/num/rat.rs::Rational::new_i64"]}
{"id": "C04", "title": "Equality of constructed rationals is equality of values", "statement": "Rational::new(a,b) == Rational::new(c,d) exactly when a*d = c*b.", "quantifier": "all quadruples of i64 with nonzero denominators (away from overflow)", "why_tests_cant": "relational property over four unbounded inputs", "anchors": ["src/core/num/rat.rs::Rational::new", "src/core/num/rat.rs::Rational (derived PartialEq)"]}
{"id": "C05", "title": "Rational arithmetic is exact", "statement": "+, -, *, / and unary - on Rationals return a rational whose value is exactly the mathematical result, or panic with integer overflow (debug build); they never silently round or return another value, and / panics on a zero divisor.", "quantifier": "all well-formed operands (positive denominator), any i64 components", "why_tests_cant": "every operand pair, including all overflow boundaries", "anchors": ["src/core/num/rat.rs::Add", "src/core/num/rat.rs::Sub", "src/core/num/rat.rs::Mul", "src/core/num/rat.rs::Div", "src/core/num/rat.rs::Neg"]}
{"id": "C06", "title": "Rational results stay in simplest form", "statement": "Every arithmetic operation on rationals in simplest form returns a rational in simplest form, so == on results decides equality of values.", "quantifier": "all operand pairs in lowest terms", "why_tests_cant": "must hold for every pair; a representation-level closure property", "anchors": ["src/core/num/rat.rs::Add", "src/core/num/rat.rs::Sub", "src/core/num/rat.rs::Mul", "src/core/num/rat.rs::Div", "src/core/num/rat.rs::Rational"]}
{"id": "C07", "title": "Zero has exactly one representation", "statement": "After any finite sequence of public Rational operations (new, new_int, +, -, *, /, neg, nonnegative pow), the denominator is positive, and a value is mathematically zero exactly when it == Rational::ZERO, and exactly when is_zero() holds.", "quantifier": "all histories of operations of any length", "why_tests_cant": "quantifies over operation histories; polynomial and matrix code relies on it for every zero test", "anchors": ["src/core/num/rat.rs::Rational", "src/core/num/traits.rs::Zero for Rational"]}
{"id": "C08", "title": "Reciprocal inverts", "statement": "recip/inv of a nonzero rational is its multiplicative inverse with positive denominator; inverting zero does not yield a value.", "quantifier": "all well-formed rationals", "why_tests_cant": "all inputs, and the zero case must be rejected", "anchors": ["src/core/num/rat.rs::Rational::recip", "src/core/num/traits.rs::Field::inv"]}
{"id": "C09", "title": "Integer powers of rationals are exact and well-formed", "statement": "pow/powi with exponent e returns a well-formed rational (positive denominator) whose value is the e-th power, for every exponent the API accepts.", "quantifier": "all well-formed bases and all exponents", "why_tests_cant": "unbounded exponents and sign combinations", "anchors": ["src/core/num/rat.rs::Rational::pow", "src/core/num/rat.rs::Rational::powi", "src/core/num/int.rs::Integer::pow"]}
{"id": "C10", "title": "The order on rationals is the numeric order", "statement": "cmp/partial_cmp on well-formed rationals agrees with the order of the rational numbers (hence reflexive, antisymmetric up to value, transitive, total), or panics on overflow.", "quantifier": "all pairs of well-formed rationals", "why_tests_cant": "order axioms quantify over all triples", "anchors": ["src/core/num/traits.rs::Ord for Rational", "src/core/num/traits.rs::PartialOrd for Rational"]}
{"id": "C11", "title": "Rational Ord is consistent with Eq", "statement": "a.cmp(&b) == Equal exactly when a == b.", "quantifier": "all pairs of rationals obtainable through the public API", "why_tests_cant": "quantifies over all reachable representations", "anchors": ["src/core/num/traits.rs::Ord for Rational", "src/core/num/rat.rs::Rational (derived Eq)"]}
{"id": "C12", "title": "Pivot selection never picks zero when a nonzero is available", "statement": "Selecting a maximum by stability_cmp over any nonempty list of rationals returns an in-range index, and the entry there is nonzero whenever the list contains a nonzero entry.", "quantifier": "all nonempty lists of rationals, any length", "why_tests_cant": "all lists; the comparator is not a total order (ZERO vs ZERO is Less)", "anchors": ["src/core/num/traits.rs::StabilityCmp for Rational", "src/linalg/util.rs::get_max_index", "src/linalg/algorithm.rs::get_stable_column_index_under_row"]}
{"id": "C13", "title": "Debug and release builds agree whenever debug does not overflow", "statement": "If an Integer/Rational operation returns a value in a build with overflow checks, the build without overflow checks returns the same value.", "quantifier": "all inputs of every Integer and Rational operation", "why_tests_cant": "relates two build profiles on all inputs", "anchors": ["src/core/num/int.rs::Integer", "src/core/num/rat.rs::Rational"]}
{"id": "C14", "title": "from_vec yields the canonical multidegree", "statement": "MultiDegree::from_vec drops exactly the trailing zeros: the exponents are unchanged, no trailing zero remains, and two vectors give == multidegrees exactly when they have the same exponents.", "quantifier": "all vectors of degrees of any length", "why_tests_cant": "all vectors, any length", "anchors": ["src/poly/mdeg.rs::MultiDegree::from_vec"]}
{"id": "C15", "title": "trim_zeros sanitises", "statement": "After trim_zeros a multidegree has the same exponents and no trailing zero.", "quantifier": "all multidegrees", "why_tests_cant": "all vectors, including the all-zero ones", "anchors": ["src/poly/mdeg.rs::MultiDegree::trim_zeros"]}
{"id": "C16", "title": "Multidegree addition adds exponents", "statement": "a + b has exponent a_i + b_i at every index and is canonical; in an overflow-checked build it panics exactly when some a_i + b_i exceeds 255.", "quantifier": "all pairs of multidegrees of any (different) lengths", "why_tests_cant": "all pairs and lengths; u8 boundary", "anchors": ["src/poly/mdeg.rs::Add for &MultiDegree"]}
{"id": "C17", "title": "checked_sub is exact subtraction", "statement": "a.checked_sub(b) is Some(c) exactly when b_i <= a_i for all i, and then c is canonical with c + b = a; otherwise it is None.", "quantifier": "all pairs of canonical multidegrees", "why_tests_cant": "all pairs and lengths", "anchors": ["src/poly/mdeg.rs::MultiDegree::checked_sub"]}
{"id": "C18", "title": "is_succ is divisibility of monomials", "statement": "a.is_succ(b) holds exactly when a_i <= b_i for every i, i.e. exactly when b.checked_sub(a) succeeds.", "quantifier": "all pairs of canonical multidegrees", "why_tests_cant": "all pairs and lengths", "anchors": ["src/poly/mdeg.rs::MultiDegree::is_succ", "src/poly/mdeg.rs::MultiDegree::checked_sub"]}
{"id": "C19", "title": "total_deg is the sum of exponents and is additive", "statement": "total_deg is the sum of all exponents, total_deg(a+b) = total_deg(a)+total_deg(b); with overflow checks it panics exactly when the sum exceeds 255.", "quantifier": "all multidegrees", "why_tests_cant": "all vectors; u8 boundary", "anchors": ["src/poly/mdeg.rs::MultiDegree::total_deg"]}
{"id": "C20", "title": "Each monomial order is the textbook order", "statement": "Lex, RevLex, GrLex and GRevLex compare canonical multidegrees exactly as the textbook definitions say (first/last differing index; total degree first).", "quantifier": "all pairs of canonical multidegrees (total degree at most 255 for the graded ones)", "why_tests_cant": "all pairs and lengths", "anchors": ["src/poly/ord.rs::Lex", "src/poly/ord.rs::RevLex", "src/poly/ord.rs::GrLex", "src/poly/ord.rs::GRevLex"]}
{"id": "C21", "title": "Each monomial order is a total order", "statement": "cmp is Equal only on equal multidegrees, antisymmetric (swapping arguments reverses the answer) and transitive, for all four orders.", "quantifier": "all pairs/triples of canonical multidegrees", "why_tests_cant": "order axioms over all triples", "anchors": ["src/poly/ord.rs::MonomialOrder"]}
{"id": "C22", "title": "Each monomial order respects multiplication and has 1 as least element", "statement": "a <= b implies a + c <= b + c, and the zero multidegree is <= every multidegree.", "quantifier": "all triples of canonical multidegrees without u8 overflow", "why_tests_cant": "all triples", "anchors": ["src/poly/ord.rs::MonomialOrder"]}
{"id": "C23", "title": "Each monomial order is a well-order in finitely many variables", "statement": "There is no infinite strictly descending chain of multidegrees in n variables, for any n and any of the four orders.", "quantifier": "all n, all infinite sequences", "why_tests_cant": "an infinitary property", "anchors": ["src/poly/ord.rs::MonomialOrder"]}
{"id": "C24", "title": "Canonical form is preserved by every operation", "statement": "Starting from canonical polynomials (nonzero coefficients, canonical pairwise distinct multidegrees), every result of +, -, *, scalar * and /, neg, conversions and constructors is again canonical, after any sequence of operations.", "quantifier": "all expression trees of any size", "why_tests_cant": "quantifies over operation histories", "anchors": ["src/poly/elts.rs::Polynomial", "src/poly/elts.rs::Term"]}
{"id": "C25", "title": "Polynomial addition is addition", "statement": "The polynomial denoted by f + g (all Term/Polynomial combinations) is the sum of the denoted polynomials.", "quantifier": "all canonical polynomials and terms", "why_tests_cant": "all inputs", "anchors": ["src/poly/elts.rs::Add for &Term", "src/poly/elts.rs::Add<&Term> for &Polynomial", "src/poly/elts.rs::Add for &Polynomial"]}
{"id": "C26", "title": "Negation and subtraction are exact", "statement": "-f and f - g (all Term/Polynomial combinations) denote the negation and the difference.", "quantifier": "all canonical polynomials and terms", "why_tests_cant": "all inputs", "anchors": ["src/poly/elts.rs::Neg", "src/poly/elts.rs::Sub"]}
{"id": "C27", "title": "Polynomial multiplication is multiplication", "statement": "f * g (all Term/Polynomial/scalar combinations) denotes the product; the only possible panic is exponent (u8) or coefficient overflow.", "quantifier": "all canonical polynomials and terms", "why_tests_cant": "all inputs", "anchors": ["src/poly/elts.rs::Mul for &Term", "src/poly/elts.rs::Mul<&Term> for &Polynomial", "src/poly/elts.rs::Mul for &Polynomial", "src/poly/elts.rs::Mul<F> for &Polynomial"]}
{"id": "C28", "title": "Division by a scalar is exact", "statement": "f / c denotes c^-1 f for every nonzero scalar c, and dividing a nonzero polynomial by zero does not return.", "quantifier": "all canonical polynomials and scalars", "why_tests_cant": "all inputs", "anchors": ["src/poly/elts.rs::Div<F> for &Polynomial", "src/core/num/traits.rs::Field::inv"]}
{"id": "C29", "title": "Canonical polynomials are determined by what they denote", "statement": "Two canonical polynomials denote the same element of F[x_0,x_1,...] exactly when their term lists are the same up to order and coefficient representation; hence ring laws (commutativity, associativity, distributivity) hold for results up to term order.", "quantifier": "all pairs/triples of canonical polynomials", "why_tests_cant": "ring laws quantify over all triples", "anchors": ["src/poly/elts.rs::Polynomial"]}
{"id": "C30", "title": "is_zero is the zero test", "statement": "A canonical polynomial is_zero exactly when it denotes 0 (f - g is_zero exactly when f and g denote the same polynomial).", "quantifier": "all canonical polynomials", "why_tests_cant": "all inputs", "anchors": ["src/poly/elts.rs::Polynomial::is_zero"]}
{"id": "C31", "title": "eval is evaluation", "statement": "Polynomial::eval(x) is the value of the denoted polynomial at x; therefore eval commutes with +, -, *; it panics with the documented message exactly when x is shorter than some term's multidegree.", "quantifier": "all polynomials and points", "why_tests_cant": "all inputs and point lengths", "anchors": ["src/poly/elts.rs::Polynomial::eval", "src/poly/elts.rs::Term::eval"]}
{"id": "C32", "title": "Term division is exact", "statement": "s.try_div(t) for nonzero s returns Some(q) with q * t = s exactly when t divides s (t.divides(s)), and None otherwise; dividing the zero term gives zero.", "quantifier": "all pairs of canonical terms", "why_tests_cant": "all pairs", "anchors": ["src/poly/elts.rs::Term::try_div", "src/poly/elts.rs::Term::divides"]}
{"id": "C33", "title": "Constructors denote what they say", "statement": "Term::var/monic/one/zero/new, Polynomial::var/one/zero/new/from denote x_i^d, x^a, 1, 0, c x^a; Term::new and From sanitise zero coefficients; Polynomial::new keeps the sum and drops zero terms.", "quantifier": "all indices, degrees, coefficients", "why_tests_cant": "all inputs", "anchors": ["src/poly/elts.rs::Term::var", "src/poly/elts.rs::Term::new", "src/poly/elts.rs::Polynomial::new", "src/poly/elts.rs::From"]}
{"id": "C34", "title": "sort_terms sorts", "statement": "sort_terms returns the same terms, ordered increasingly by the monomial order, and denotes the same polynomial.", "quantifier": "all canonical polynomials, all four orders", "why_tests_cant": "all inputs", "anchors": ["src/poly/comp.rs::Computer::sort_terms"]}
{"id": "C35", "title": "leading_term is the leading term", "statement": "leading_term is None exactly for the zero polynomial and otherwise the unique term of maximal multidegree; leading_coef is its coefficient.", "quantifier": "all canonical polynomials, all monomial orders", "why_tests_cant": "all inputs", "anchors": ["src/poly/comp.rs::Computer::leading_term", "src/poly/comp.rs::Computer::leading_coef"]}
{"id": "C36", "title": "divide satisfies f = q_1 g_1 + ... + q_m g_m + r", "statement": "The returned quotients and remainder satisfy the division identity exactly and are canonical.", "quantifier": "all f, all lists of divisors (zero divisors allowed), all monomial orders", "why_tests_cant": "all inputs; existing test enumerates a tiny box over f64", "anchors": ["src/poly/comp.rs::Computer::divide"]}
{"id": "C37", "title": "divide's remainder is reduced", "statement": "No term of the remainder is divisible by the leading term of any divisor.", "quantifier": "all f, all divisor lists, all monomial orders", "why_tests_cant": "all inputs", "anchors": ["src/poly/comp.rs::Computer::divide"]}
{"id": "C38", "title": "divide's quotients respect the degree bound", "statement": "The multidegree of each q_i g_i, and of r, is at most the multidegree of f.", "quantifier": "all f, all divisor lists, all monomial orders", "why_tests_cant": "all inputs", "anchors": ["src/poly/comp.rs::Computer::divide"]}
{"id": "C39", "title": "divide terminates", "statement": "The division loop terminates on every input, for every monomial order (returning or panicking with overflow); over an exact field with a degree-compatible order and total degrees at most 255 it never panics.", "quantifier": "all f, all divisor lists", "why_tests_cant": "termination: unbounded number of loop iterations", "anchors": ["src/poly/comp.rs::Computer::divide"]}
{"id": "C40", "title": "monic_lcm is the monic least common multiple", "statement": "monic_lcm(s,t) of nonzero terms is monic, is divisible by both, and divides every common multiple.", "quantifier": "all pairs of canonical nonzero terms", "why_tests_cant": "universal property over all multiples", "anchors": ["src/poly/comp.rs::Computer::monic_lcm"]}
{"id": "C41", "title": "try_reduce is the S-polynomial", "statement": "try_reduce(f,g) is None exactly when f or g is zero; otherwise it denotes (M/LT f) f - (M/LT g) g with M the monic lcm, and every multidegree in it is strictly below that of M.", "quantifier": "all pairs of canonical polynomials, all monomial orders", "why_tests_cant": "all pairs", "anchors": ["src/poly/comp.rs::Computer::try_reduce"]}
{"id": "C42", "title": "buchberger_criterion decides Groebner bases", "statement": "For nonzero generators, buchberger_criterion returns true exactly when they are a Groebner basis of the ideal they generate.", "quantifier": "all lists of nonzero canonical polynomials, all monomial orders", "why_tests_cant": "the right-hand side quantifies over every element of an infinite ideal", "anchors": ["src/poly/comp.rs::Computer::buchberger_criterion"]}
{"id": "C43", "title": "buchberger_algorithm preserves the ideal", "statement": "The list after buchberger_algorithm generates exactly the same ideal as before.", "quantifier": "all lists of nonzero canonical polynomials", "why_tests_cant": "ideal equality quantifies over infinitely many elements", "anchors": ["src/poly/comp.rs::Computer::buchberger_algorithm"]}
{"id": "C44", "title": "buchberger_algorithm yields a Groebner basis", "statement": "After buchberger_algorithm, the leading term of every nonzero element of the ideal is divisible by the leading term of some element of the list.", "quantifier": "all lists of nonzero canonical polynomials, all monomial orders", "why_tests_cant": "quantifies over every element of an infinite ideal", "anchors": ["src/poly/comp.rs::Computer::buchberger_algorithm"]}
{"id": "C45", "title": "buchberger_algorithm terminates", "statement": "buchberger_algorithm terminates on every list of nonzero canonical polynomials (returning or panicking with overflow).", "quantifier": "all inputs", "why_tests_cant": "termination rests on the ascending chain condition", "anchors": ["src/poly/comp.rs::Computer::buchberger_extend", "src/poly/comp.rs::Computer::buchberger_minimize", "src/poly/comp.rs::Computer::buchberger_reduce"]}
{"id": "C46", "title": "buchberger_algorithm yields a reduced Groebner basis", "statement": "In the resulting list no term of an element is divisible by the leading term of another element and every element is monic.", "quantifier": "all lists of nonzero canonical polynomials", "why_tests_cant": "all inputs", "anchors": ["src/poly/comp.rs::Computer::buchberger_algorithm"]}
{"id": "C47", "title": "The reduced basis is canonical", "statement": "Two generating lists of the same ideal produce the same resulting basis (as sets).", "quantifier": "all pairs of lists generating the same ideal", "why_tests_cant": "relational over all pairs of generating sets", "anchors": ["src/poly/comp.rs::Computer::buchberger_algorithm"]}
{"id": "C48", "title": "Remainders decide ideal membership", "statement": "If the divisors form a Groebner basis then divide(f, G).0.is_zero() exactly when f is in the ideal, and the remainder does not depend on the order of the divisors.", "quantifier": "all f, all Groebner bases, all permutations", "why_tests_cant": "ideal membership is not finitely testable", "anchors": ["src/poly/comp.rs::Computer::divide"]}
{"id": "C49", "title": "buchberger routines accept every generating list", "statement": "buchberger_algorithm and buchberger_criterion do not panic on lists containing the zero polynomial.", "quantifier": "all lists of canonical polynomials", "why_tests_cant": "all inputs", "anchors": ["src/poly/comp.rs::Computer::buchberger_algorithm", "src/poly/comp.rs::Computer::buchberger_criterion"]}
{"id": "C50", "title": "Matrix cells are independent", "statement": "For every well-formed matrix, entry reads return the value last written to that cell; writing (r,c) changes no other cell; swap exchanges exactly two cells; with overflow checks, indexes whose offset lies past the entry vector panic.", "quantifier": "all dimensions and indices", "why_tests_cant": "all sizes", "anchors": ["src/linalg/mat.rs::Index", "src/linalg/mat.rs::IndexMut", "src/linalg/mat.rs::Mat::swap"]}
{"id": "C51", "title": "Matrix constructors", "statement": "identity, zero, e, from_col_vectors, from_row_vectors, permutation_from_vec have the documented entries and dimensions.", "quantifier": "all dimensions", "why_tests_cant": "all sizes", "anchors": ["src/linalg/mat.rs::Mat::identity", "src/linalg/mat.rs::Mat::e", "src/linalg/mat.rs::Mat::from_col_vectors", "src/linalg/mat.rs::Mat::from_row_vectors", "src/linalg/mat.rs::Mat::permutation_from_vec", "src/linalg/mat.rs::Mat::zero"]}
{"id": "C52", "title": "Matrix addition, scaling and multiplication", "statement": "+, scalar * (also *= and scale) and * on well-formed matrices are matrix addition, scaling and multiplication; incompatible dimensions panic.", "quantifier": "all well-formed matrices of all dimensions", "why_tests_cant": "all sizes", "anchors": ["src/linalg/mat.rs::Add for &Mat", "src/linalg/mat.rs::Mul for &Mat", "src/linalg/mat.rs::Mul<F> for &Mat", "src/linalg/mat.rs::MulAssign", "src/linalg/mat.rs::Mat::scale"]}
{"id": "C53", "title": "transpose", "statement": "transpose has entry (c,r) equal to entry (r,c), swaps the dimensions and is an involution.", "quantifier": "all well-formed matrices", "why_tests_cant": "all sizes", "anchors": ["src/linalg/mat.rs::Mat::transpose"]}
{"id": "C54", "title": "Elementary matrices act as the row operations", "statement": "scale_mat, permutation and replacement, multiplied on the left, have the same effect as scale_row, permute_rows and replace_row.", "quantifier": "all dimensions, all valid row indices (including equal source and target)", "why_tests_cant": "all sizes and index pairs", "anchors": ["src/linalg/mat.rs::Mat::scale_mat", "src/linalg/mat.rs::Mat::permutation", "src/linalg/mat.rs::Mat::replacement", "src/linalg/mat.rs::Mat::scale_row", "src/linalg/mat.rs::Mat::permute_rows", "src/linalg/mat.rs::Mat::replace_row"]}
{"id": "C55", "title": "Row and column iterators", "statement": "get_row_iter/get_row/get_col_iter/get_col and the mutable iterators get_row_iter_mut/get_col_iter_mut visit exactly the entries of that row or column, in order.", "quantifier": "all well-formed matrices of any shape", "why_tests_cant": "all shapes", "anchors": ["src/linalg/mat.rs::Mat::get_row_iter", "src/linalg/mat.rs::Mat::get_col_iter", "src/linalg/mat.rs::Mat::get_col_iter_mut", "src/linalg/mat.rs::Mat::get_row_iter_mut"]}
{"id": "C56", "title": "dot and frobenius_norm", "statement": "dot of two equally long vectors is the inner product; frobenius_norm is the sum of squares of the entries.", "quantifier": "all matrices", "why_tests_cant": "all sizes", "anchors": ["src/linalg/mat.rs::Mat::dot", "src/linalg/mat.rs::Mat::frobenius_norm"]}
{"id": "C57", "title": "epsilon_equals on exact matrices is equality", "statement": "For rational matrices of equal dimensions, epsilon_equals holds exactly when all entries have equal values.", "quantifier": "all pairs of well-formed rational matrices of equal dimensions", "why_tests_cant": "all sizes", "anchors": ["src/linalg/mat.rs::EpsilonEquality for Mat", "src/core/num/traits.rs::EpsilonEquality for Rational"]}
{"id": "C58", "title": "Triangularity tests", "statement": "is_upper_triangular / is_lower_triangular hold exactly when every entry below / above the diagonal is zero.", "quantifier": "all well-formed matrices of any shape", "why_tests_cant": "all shapes", "anchors": ["src/linalg/mat.rs::Mat::is_upper_triangular", "src/linalg/mat.rs::Mat::is_lower_triangular"]}
{"id": "C59", "title": "LU decomposition is correct", "statement": "lu returns p, l, u with p*A = l*u, p a permutation matrix, l lower triangular and invertible.", "quantifier": "all matrices of any shape over an exact field", "why_tests_cant": "all sizes; the existing test covers 3x4 matrices over {0,1,2} with floats", "anchors": ["src/linalg/algorithm.rs::Mat::lu"]}
{"id": "C60", "title": "LU's u is in row echelon form", "statement": "u from lu is in row echelon form with unit pivots.", "quantifier": "all matrices of any shape", "why_tests_cant": "all sizes", "anchors": ["src/linalg/algorithm.rs::Mat::lu"]}
{"id": "C61", "title": "row_echelon is a row-equivalent echelon form", "statement": "row_echelon returns p invertible and b with p*A = b and b in row echelon form with unit pivots.", "quantifier": "all matrices of any shape", "why_tests_cant": "all sizes", "anchors": ["src/linalg/algorithm.rs::Mat::row_echelon"]}
{"id": "C62", "title": "to_rref is the reduced row echelon form", "statement": "row_echelon().to_rref() satisfies p*A = b with p invertible and b in reduced row echelon form (pivot columns are unit vectors); row-equivalent matrices give the same b.", "quantifier": "all matrices of any shape", "why_tests_cant": "all sizes", "anchors": ["src/linalg/algorithm.rs::to_rref"]}
{"id": "C63", "title": "rank and nullity", "statement": "rank() is the rank of the original matrix and nullity() is the dimension of its kernel; they add up to the number of columns.", "quantifier": "all matrices of any shape", "why_tests_cant": "dimension of a subspace quantifies over all vectors", "anchors": ["src/linalg/algorithm.rs::rank", "src/linalg/algorithm.rs::nullity", "src/linalg/algorithm.rs::Mat::zero_rows"]}
{"id": "C64", "title": "compute_kernel is a basis of the kernel", "statement": "The vectors returned are linearly independent and span exactly the kernel of the original matrix.", "quantifier": "all matrices of any shape", "why_tests_cant": "spanning quantifies over all vectors", "anchors": ["src/linalg/algorithm.rs::compute_kernel"]}
{"id": "C65", "title": "compute_range is a basis of the column space", "statement": "The vectors returned are linearly independent columns of the original matrix and span its column space.", "quantifier": "all matrices of any shape, any hash iteration order", "why_tests_cant": "spanning quantifies over all vectors; untested in the repo", "anchors": ["src/linalg/algorithm.rs::compute_range"]}
{"id": "C66", "title": "Gaussian elimination never fails on exact fields", "statement": "lu, row_echelon, to_rref, compute_kernel, rank never panic over an exact field, and over Rational can only panic with integer overflow (never divide by zero, never index out of bounds, never unwrap None).", "quantifier": "all well-formed matrices of any shape, including 0xm and nx0", "why_tests_cant": "all sizes", "anchors": ["src/linalg/algorithm.rs::Mat::lu", "src/linalg/algorithm.rs::Mat::row_echelon", "src/linalg/algorithm.rs::to_rref", "src/linalg/algorithm.rs::compute_kernel"]}
{"id": "C67", "title": "lu and row_echelon agree", "statement": "The u of lu equals the b of row_echelon, entry by entry.", "quantifier": "all matrices", "why_tests_cant": "all sizes", "anchors": ["src/linalg/algorithm.rs::Mat::lu", "src/linalg/algorithm.rs::Mat::row_echelon"]}
{"id": "C68", "title": "num_to_seq yields base digits", "statement": "num_to_seq(n, base) for base >= 2 yields exactly the base-`base` digits of n, least significant first, and terminates.", "quantifier": "all n, all bases >= 2 (n*base fits in usize)", "why_tests_cant": "all n; unbounded iteration", "anchors": ["src/linalg/util.rs::num_to_seq"]}
{"id": "C69", "title": "mat_iterator enumerates every matrix exactly once", "statement": "mat_iterator(n, m, values) yields values.len()^(n*m) well-formed n x m matrices, every choice of entries occurring exactly once.", "quantifier": "all n, m, and value slices", "why_tests_cant": "exhaustiveness over all sizes", "anchors": ["src/linalg/util.rs::mat_iterator", "src/linalg/util.rs::MatIterator"]}
{"id": "C70", "title": "get_box_iter is row-major order", "statement": "get_box_iter(rows, cols) yields every pair (r,c) with r<rows, c<cols exactly once, the k-th being (k / cols, k % cols); so does index_iter of a rows x cols matrix.", "quantifier": "all rows, cols", "why_tests_cant": "all sizes", "anchors": ["src/linalg/util.rs::get_box_iter", "src/linalg/mat.rs::Mat::index_iter"]}
{"id": "C71", "title": "Cone::new computes supporting hyperplanes", "statement": "Every facet recorded by Cone::new has a nonzero normal that is nonnegative on all generators and vanishes on the facet's generators, and the orthogonal-complement basis is a basis of the vectors orthogonal to all generators.", "quantifier": "all generator lists", "why_tests_cant": "all inputs; geometric statement over all generators", "anchors": ["src/linalg/cone.rs::Cone::new"]}
{"id": "C72", "title": "Cone::new accepts every nonempty generator list", "statement": "Cone::new does not panic on nonempty lists of equally long vectors.", "quantifier": "all nonempty generator lists", "why_tests_cant": "all inputs", "anchors": ["src/linalg/cone.rs::Cone::new"]}
{"id": "C73", "title": "superscript is the decimal rendering", "statement": "superscript(n) consists of the decimal digits of n, most significant first, each as a superscript character; distinct numbers render differently.", "quantifier": "all u8 values (proved for all naturals)", "why_tests_cant": "recursion over digits", "anchors": ["src/poly/display.rs::superscript"]}
{"id": "C74", "title": "Displayed multidegrees are unambiguous", "statement": "Distinct canonical multidegrees never display as the same string.", "quantifier": "all pairs of canonical multidegrees", "why_tests_cant": "all pairs", "anchors": ["src/poly/display.rs::Display for MultiDegree"]}
{"id": "C75", "title": "Displayed polynomials are unambiguous", "statement": "Distinct canonical rational polynomials (distinct term lists) never display as the same string.", "quantifier": "all pairs of canonical rational polynomials", "why_tests_cant": "all pairs", "anchors": ["src/poly/display.rs::Display for Polynomial<Rational>", "src/poly/display.rs::Display for Term"]}
{"id": "C76", "title": "Polynomial results agree between debug and release builds", "statement": "If a polynomial or matrix computation completes in an overflow-checked build, the unchecked build returns the identical result.", "quantifier": "all inputs of all polynomial operations", "why_tests_cant": "relates two build profiles on all inputs", "anchors": ["src/poly/elts.rs::Polynomial", "src/poly/comp.rs::Computer"]}
{"id": "C77", "title": "Cone::new finds every facet", "statement": "For a full-dimensional cone, every set of dim-1 linearly independent generators that lies on a hyperplane with all generators on one side is recorded as a facet by Cone::new.", "quantifier": "all generator lists spanning the ambient space", "why_tests_cant": "completeness over all subsets", "anchors": ["src/linalg/cone.rs::Cone::new"]}
{"id": "C78", "title": "Facets of Cone::new are proper faces", "statement": "The normal of every facet recorded by Cone::new is positive on at least one generator.", "quantifier": "all generator lists", "why_tests_cant": "all inputs", "anchors": ["src/linalg/cone.rs::Cone::new"]}
{"id": "C79", "title": "Variable shorthands display as their own name", "statement": "Each shorthand x, y, z, w, u, v of fn_vars! stands for the variable that Display prints under that name.", "quantifier": "all shorthands and degrees", "why_tests_cant": "agreement of two tables kept in different files", "anchors": ["src/poly/macros.rs::fn_vars", "src/poly/display.rs::Display for MultiDegree"]}
{"id": "C80", "title": "is_zero and is_one test the value", "statement": "Rational::is_zero and is_one hold exactly when the rational's value is 0 or 1, even if it is not in simplest form; Integer::is_zero, is_one, is_pos, is_neg test the integer.", "quantifier": "all rationals with positive denominator, all integers", "why_tests_cant": "all values, including unreduced fractions that only arithmetic produces", "anchors": ["src/core/num/traits.rs::Zero for Rational", "src/core/num/traits.rs::One for Rational", "src/core/num/traits.rs::Zero for Integer"]}
{"id": "C81", "title": "The rational pivot has least height", "statement": "Among the nonzero entries of a column, pivot selection over rationals picks the one with the least |numer|+|denom| (the last such entry), and the last entry if all are zero; stability_cmp puts zero below everything and orders nonzero rationals by decreasing |numer|+|denom|. (The doc comment says largest sum; the code prefers the smallest.)", "quantifier": "all lists of rationals", "why_tests_cant": "optimality over all entries of lists of any length", "anchors": ["src/core/num/traits.rs::StabilityCmp for Rational", "src/linalg/util.rs::get_max_index"]}
{"id": "C82", "title": "lcm on every input", "statement": "In both builds, for arguments other than i64::MIN, Integer::lcm(a,b) panics for a = b = 0 and otherwise is the least common multiple with the sign of a*b, if that fits i64.", "quantifier": "all pairs of i64 except i64::MIN", "why_tests_cant": "2^128 inputs", "anchors": ["src/core/num/int.rs::Integer::lcm"]}
{"id": "C83", "title": "pow on every exponent", "statement": "Rational::pow(x, e) raises numerator and denominator to |e| modulo 2^32, exchanging them when e is negative, without normalising the sign; nothing but i64 overflow panics.", "quantifier": "all rationals and all exponents", "why_tests_cant": "all exponents, including those truncated by `as u32`", "anchors": ["src/core/num/rat.rs::Rational::pow", "src/core/num/int.rs::Integer::pow"]}
{"id": "C84", "title": "Rational operations fail exactly when an intermediate value overflows", "statement": "With overflow checks, +, -, *, /, unary -, recip, cmp and Rational::new return exactly when the named intermediate products (and sums) fit i64; for + and - the result is the unreduced cross-multiplied fraction, or 0/1.", "quantifier": "all pairs of rationals", "why_tests_cant": "boundary of overflow over 2^256 inputs", "anchors": ["src/core/num/rat.rs::Add", "src/core/num/rat.rs::Sub", "src/core/num/rat.rs::Mul", "src/core/num/rat.rs::Div", "src/core/num/rat.rs::Rational::new"]}
{"id": "C85", "title": "Displayed matrices", "statement": "Displaying a matrix with at least rows*cols entries never panics and writes a line break and then the rows as [a, b, c] separated by line breaks, surplus entries are not shown; with too few entries it panics; distinct rational matrices with at least one row never display as the same text.", "quantifier": "all well-formed matrices of any shape", "why_tests_cant": "all shapes and entries", "anchors": ["src/linalg/mat.rs::Display for Mat"]}
{"id": "C86", "title": "The program prints the difference of squares", "statement": "main returns without panicking in both builds and prints (x + y)(x - y) = x² - y².", "quantifier": "the single run of the binary", "why_tests_cant": "covers parsing-free end-to-end behaviour in both build profiles; no test runs main", "anchors": ["src/main.rs::main"]}
{"id": "C87", "title": "lu and row_echelon agree bit for bit for every coefficient type", "statement": "If lu and row_echelon both return, the u of lu is identical to the b of row_echelon, for every type implementing the traits (f32 and f64 included, no field law assumed) and every matrix, well-formed or not; original is the input matrix, also after to_rref.", "quantifier": "all coefficient types, all matrices", "why_tests_cant": "universal over implementations of the traits", "anchors": ["src/linalg/algorithm.rs::Mat::lu", "src/linalg/algorithm.rs::Mat::row_echelon", "src/linalg/algorithm.rs::to_rref"]}
{"id": "C88", "title": "Stability order on f32 and f64", "statement": "stability_cmp on f32 and f64 compares absolute values: it is None exactly if an operand is a NaN, zero is below every other number, infinities are on top. The comparison partial_cmp used by Cone is None exactly if an operand is a NaN and otherwise orders from minus infinity to infinity.", "quantifier": "all pairs of f32 and f64 values", "why_tests_cant": "2^128 pairs", "anchors": ["src/core/num/traits.rs::StabilityCmp for f64"]}
{"id": "C89", "title": "epsilon_equals on f32 and f64", "statement": "epsilon_equals(a, b) on f32 and f64 holds exactly when both are finite and the exact difference is less than 2^-52 - 2^-106 (f32: 2^-23 - 2^-48) (what rounds below EPSILON); it is symmetric, reflexive on finite numbers, and for numbers of size at least 1 means equality of values.", "quantifier": "all pairs of f32 and f64 values", "why_tests_cant": "2^128 pairs; boundary of a rounding", "anchors": ["src/core/num/traits.rs::EpsilonEquality for f64"]}
{"id": "C90", "title": "epsilon_equals on f32 and f64 is an equivalence relation", "statement": "epsilon_equals on f32 and f64 is reflexive, symmetric and transitive.", "quantifier": "all f32 and f64 values", "why_tests_cant": "transitivity over triples", "anchors": ["src/core/num/traits.rs::EpsilonEquality for f64"]}
{"id": "C91", "title": "Pivot search over f32 and f64", "statement": "get_max_index over f32 and f64 panics exactly if there are two or more entries of which one is a NaN and otherwise returns the last entry of greatest absolute value; get_stable therefore returns None exactly if all entries at or below the row are within EPSILON of zero, and otherwise the last entry of greatest absolute value.", "quantifier": "all lists of f32 and f64 and all f32 and f64 matrices", "why_tests_cant": "all lengths, NaN placement", "anchors": ["src/linalg/util.rs::get_max_index", "src/linalg/algorithm.rs::Mat::get_stable"]}
{"id": "C92", "title": "Elimination without field laws keeps shape and structure", "statement": "For every coefficient type, lu of an n x m matrix ends and, unless a coefficient operation panics, returns a permutation matrix p, a lower triangular l whose diagonal entries are one or were accepted as nonzero, and an n x m matrix u; row_echelon and to_rref keep the dimensions, rank() is at most n, kernel vectors have m entries and range vectors n. Over f32 and f64 the only panic is the comparison with a NaN in the pivot search.", "quantifier": "all coefficient types (f32 and f64 included), all well-formed matrices with n*n < 2^64", "why_tests_cant": "universal over implementations of the traits and all sizes", "anchors": ["src/linalg/algorithm.rs::Mat::lu", "src/linalg/algorithm.rs::Mat::row_echelon", "src/linalg/algorithm.rs::to_rref", "src/linalg/algorithm.rs::compute_kernel", "src/linalg/algorithm.rs::compute_range", "src/linalg/algorithm.rs::rank"]}
{"id": "C93", "title": "Elimination over f32 and f64 is as good as over a field", "statement": "For finite f32 and f64 matrices lu does not panic, its u is upper triangular, and nullity() does not panic.", "quantifier": "all finite f32 and f64 matrices", "why_tests_cant": "rounding errors occur on rare inputs only", "anchors": ["src/linalg/algorithm.rs::Mat::lu", "src/linalg/algorithm.rs::nullity"]}
{"id": "C94", "title": "Sums and products keep polynomials canonical for every coefficient type", "statement": "If p has no zero coefficient and no repeated multidegree, then neither have p + q and p - q, and neither has p * q if also q is so, for every coefficient type.", "quantifier": "all coefficient types, all polynomials", "why_tests_cant": "universal over implementations of the traits", "anchors": ["src/poly/elts.rs::Add for Polynomial", "src/poly/elts.rs::Sub for Polynomial", "src/poly/elts.rs::Mul for &Polynomial"]}
{"id": "C95", "title": "divide works for every coefficient type", "statement": "divide ends, and no term of the remainder has a multidegree divisible by the leading multidegree of a divisor with nonzero leading coefficient, for every coefficient type, f32 and f64 included.", "quantifier": "all coefficient types, all polynomials, the four orders, checked build", "why_tests_cant": "universal over implementations of the traits; termination", "anchors": ["src/poly/comp.rs::Computer::divide"]}
{"id": "C96", "title": "epsilon_equals on f32 and f64 matrices implies that of the entries", "statement": "If two f32 or two f64 matrices of the same shape are epsilon-equal, so are all corresponding entries.", "quantifier": "all pairs of f32 and f64 matrices", "why_tests_cant": "rounded sums over all sizes", "anchors": ["src/linalg/mat.rs::EpsilonEquality for Mat"]}
{"id": "C97", "title": "sort_terms gives a normal form", "statement": "Two canonical polynomials are equal exactly when their sorted term lists agree term by term (which is what the crate's own tests compare).", "quantifier": "all pairs of canonical polynomials, all four orders", "why_tests_cant": "all pairs", "anchors": ["src/poly/comp.rs::Computer::sort_terms"]}
{"id": "C98", "title": "Remainders are sorted and are normal forms", "statement": "The terms of the remainder of divide are in strictly descending order; a polynomial with no reducible term is its own remainder with zero quotients; dividing a remainder again by the same divisors returns exactly the same term list.", "quantifier": "all polynomials and divisors, all four orders", "why_tests_cant": "relation between two runs on all inputs", "anchors": ["src/poly/comp.rs::Computer::divide"]}
{"id": "C99", "title": "The basis shows whether the equations have a solution", "statement": "buchberger_algorithm returns a single nonzero constant exactly when the ideal contains 1, that is, exactly when the system has no solution over an algebraic closure.", "quantifier": "all lists of nonzero polynomials in any number of variables", "why_tests_cant": "Nullstellensatz; quantifies over all points of an algebraic closure", "anchors": ["src/poly/comp.rs::Computer::buchberger_algorithm"]}
{"id": "C100", "title": "Remainders compute in the quotient ring", "statement": "Modulo a Groebner basis two polynomials have the same remainder exactly when they are congruent; the remainder of a sum is the sum of the remainders; the remainder of a product is that of the product of the remainders.", "quantifier": "all polynomials and all Groebner bases", "why_tests_cant": "relations between several runs on all inputs", "anchors": ["src/poly/comp.rs::Computer::divide", "src/poly/elts.rs::Add for Polynomial", "src/poly/elts.rs::Mul for &Polynomial"]}
{"id": "C101", "title": "Elimination", "statement": "With Lex the basis elements free of the first k variables generate the ideal of all consequences free of these variables; with RevLex the same for the last variables.", "quantifier": "all lists of nonzero polynomials, all k", "why_tests_cant": "quantifies over all elements of an ideal", "anchors": ["src/poly/comp.rs::Computer::buchberger_algorithm", "src/poly/ord.rs::Lex", "src/poly/ord.rs::RevLex"]}
{"id": "C102", "title": "buchberger_algorithm is idempotent", "statement": "Applied to its own result it changes nothing, and buchberger_criterion answers true on the result.", "quantifier": "all lists of nonzero polynomials", "why_tests_cant": "composition of runs on all inputs", "anchors": ["src/poly/comp.rs::Computer::buchberger_algorithm", "src/poly/comp.rs::Computer::buchberger_criterion"]}
{"id": "C103", "title": "A zero generator is never accepted", "statement": "With two or more generators of which one is zero, buchberger_algorithm never returns and buchberger_criterion never answers true, for every coefficient type; over rationals and exact fields the call panics. A single generator is returned unchanged.", "quantifier": "all lists of polynomials containing zero", "why_tests_cant": "universal over lists, orders and coefficient types", "anchors": ["src/poly/comp.rs::Computer::buchberger_algorithm", "src/poly/comp.rs::Computer::buchberger_criterion"]}
{"id": "C104", "title": "A returned basis is reduced for every coefficient type", "statement": "If buchberger_algorithm returns, no term of an element is divisible by the leading term of another element, for every coefficient type (f32 and f64 included), order and build.", "quantifier": "all coefficient types, all lists of polynomials", "why_tests_cant": "universal over implementations of the traits", "anchors": ["src/poly/comp.rs::Computer::buchberger_algorithm"]}
{"id": "C105", "title": "In one variable buchberger_algorithm computes the gcd", "statement": "For one variable the result is a single polynomial, which divides every generator and is divisible by every common divisor.", "quantifier": "all nonempty lists of nonzero polynomials in one variable", "why_tests_cant": "quantifies over all common divisors", "anchors": ["src/poly/comp.rs::Computer::buchberger_algorithm"]}
{"id": "C106", "title": "Standard monomials form a basis of the quotient", "statement": "The monomials not divisible by a leading monomial of the result are a basis of the quotient ring; the quotient is finite-dimensional exactly when every variable has a power among the leading monomials.", "quantifier": "all lists of nonzero polynomials", "why_tests_cant": "linear independence and spanning in an infinite ring", "anchors": ["src/poly/comp.rs::Computer::buchberger_algorithm"]}
{"id": "C107", "title": "Membership is decided end to end", "statement": "Computing a basis with buchberger_algorithm and dividing f by it gives remainder zero exactly when f is in the ideal generated by the original generators.", "quantifier": "all polynomials and all lists of nonzero generators", "why_tests_cant": "quantifies over all combinations of the generators", "anchors": ["src/poly/comp.rs::Computer::buchberger_algorithm", "src/poly/comp.rs::Computer::divide"]}
{"id": "C108", "title": "A run over f32 and f64 in which nothing is rounded is exact", "statement": "If an f32 or f64 computation meets no rounding, overflow or NaN (every operation's result is the exact rational value), then polynomial arithmetic, divide, buchberger_algorithm, elimination and Cone::new over f32 and f64 return exactly the mathematically correct answer, with all the properties proved for exact fields.", "quantifier": "all f32 and f64 inputs whose run is free of rounding", "why_tests_cant": "quantifies over all runs; tests compare a few small cases only", "anchors": ["src/poly/elts.rs::Polynomial", "src/poly/comp.rs::Computer::divide", "src/poly/comp.rs::Computer::buchberger_algorithm", "src/linalg/algorithm.rs::Mat::row_echelon", "src/linalg/cone.rs::Cone::new"]}
{"id": "C109", "title": "Integer f32 and f64 data are exact up to 2^53 (f32: 2^24)", "statement": "Sums, differences and products of polynomials and matrices with integral f32 and f64 coefficients are the exact integer results whenever the coefficient-sum bounds stay within 2^53 (f32: 2^24).", "quantifier": "all integral f32 and f64 polynomials and matrices within the bound", "why_tests_cant": "all sizes and degrees; the bound is sharp", "anchors": ["src/poly/elts.rs::Add for Polynomial", "src/poly/elts.rs::Mul for &Polynomial", "src/linalg/mat.rs::Mul for Mat"]}
{"id": "C110", "title": "Row reduction inverts matrices and solves systems", "statement": "For a square matrix the reduced row echelon form is the identity exactly when the matrix is invertible, exactly when rank() is the size, and then p is the inverse; for any matrix A x = y holds exactly when B x = P y, and the system is solvable exactly when P y vanishes in the rows from rank() on.", "quantifier": "all matrices, right-hand sides and solutions", "why_tests_cant": "quantifies over all solutions", "anchors": ["src/linalg/algorithm.rs::to_rref", "src/linalg/algorithm.rs::rank"]}
{"id": "C111", "title": "lu gives the determinant", "statement": "The determinant of a square matrix is the sign of the permutation p times the product of the diagonals of l and u; either u has an all-one diagonal, or its last row is zero and the determinant is zero.", "quantifier": "all square matrices", "why_tests_cant": "all sizes", "anchors": ["src/linalg/algorithm.rs::Mat::lu"]}
{"id": "C112", "title": "Form of the kernel vectors", "statement": "compute_kernel returns nullity() vectors; there are as many columns c0 < c1 < ..., and the i-th vector has a one at c_i, zeros at the other c_j and zeros after c_i; the c_i are exactly the columns that are combinations of earlier columns.", "quantifier": "all matrices", "why_tests_cant": "all sizes, exact output", "anchors": ["src/linalg/algorithm.rs::compute_kernel", "src/linalg/algorithm.rs::nullity"]}
{"id": "C113", "title": "Form of the range vectors", "statement": "compute_range returns rank() vectors, which are exactly the columns that are not combinations of earlier columns, each once.", "quantifier": "all matrices", "why_tests_cant": "all sizes and hash orders, exact output", "anchors": ["src/linalg/algorithm.rs::compute_range", "src/linalg/algorithm.rs::rank"]}
{"id": "C114", "title": "Exactly which facets Cone::new records", "statement": "The recorded facets are, in lexicographic order of positions and each once, the sets of dim-1 linearly independent generators for which the following vector is nonnegative on all generators: the orthogonal vector whose last nonzero entry is a one and comes as early as possible, negated if negative on the first generator; that vector is the recorded normal.", "quantifier": "all generator lists on which Cone::new returns", "why_tests_cant": "exact output over all subsets", "anchors": ["src/linalg/cone.rs::Cone::new"]}
{"id": "C115", "title": "When the facets describe the cone", "statement": "For a full-dimensional cone, the cone is the intersection of the recorded half-spaces if and only if every supporting hyperplane spanned by generators that contains the first generator has an inner normal whose last nonzero entry is positive.", "quantifier": "all generator lists spanning the ambient space, all points", "why_tests_cant": "quantifies over all points of the space and all hyperplanes", "anchors": ["src/linalg/cone.rs::Cone::new"]}
{"id": "C116", "title": "Integer Rational data never overflow when small", "statement": "Sums, differences and products of polynomials and matrices, and inner products of vectors, with integer Rational coefficients return without panic, in both builds, with the exact integer result (denominator 1), whenever the entries and the coefficient-sum bounds stay below 2^63.", "quantifier": "all integer polynomials, matrices and vectors within the bound, both builds", "why_tests_cant": "all sizes and degrees; the bound is sharp", "anchors": ["src/poly/elts.rs::Add for Polynomial", "src/poly/elts.rs::Mul for &Polynomial", "src/linalg/mat.rs::Mul for Mat", "src/linalg/mat.rs::Mat::dot", "src/core/num/rat.rs::Add for Rational", "src/core/num/rat.rs::Mul for Rational"]}
{"id": "C117", "title": "Elementary matrices and row operations on any indices", "statement": "scale_mat, replacement, permutation and e with indices out of range are the identity (the zero vector for e), except that permutation with one index in range erases that row; replacement(n,i,i,x) multiplies row i by x while replace_row(i,i,x) multiplies it by 1+x; permutation_from_vec of any vector selects rows; with overflow checks the row mutators panic on a missing row unless there are no columns.", "quantifier": "all sizes, indices and coefficient types", "why_tests_cant": "all indices, including those no test passes", "anchors": ["src/linalg/mat.rs::Mat::scale_mat", "src/linalg/mat.rs::Mat::replacement", "src/linalg/mat.rs::Mat::permutation", "src/linalg/mat.rs::Mat::permutation_from_vec", "src/linalg/mat.rs::Mat::replace_row", "src/linalg/mat.rs::Mat::e"]}
{"id": "C118", "title": "get_col_iter_mut on every matrix", "statement": "get_col_iter_mut(c) panics without rows, panics if c is at least the number of rows (unless there are fewer entries than rows), and otherwise yields the distinct cells c, rows+c, 2 rows+c, ...; on nonempty well-formed matrices this is column c for every c exactly when the matrix is square.", "quantifier": "all matrices and columns", "why_tests_cant": "all shapes", "anchors": ["src/linalg/mat.rs::Mat::get_col_iter_mut"]}
{"id": "C119", "title": "mat_iterator on every argument", "statement": "With k values and e = n m mod 2^32, in debug mat_iterator panics if n m or k^e overflows usize, yields nothing if k = 0 and e > 0, panics if k = 0 and e = 0, yields exactly k^e matrices (entry t of the i-th is values[i / k^t mod k]) if (k^e-1) k fits usize, and panics otherwise; it never runs forever.", "quantifier": "all sizes and value slices", "why_tests_cant": "sizes near the word size cannot be enumerated", "anchors": ["src/linalg/util.rs::mat_iterator", "src/linalg/util.rs::MatIterator::next"]}
{"id": "C120", "title": "divide gives every monomial to the first possible divisor", "statement": "In the result of divide no monomial of q_i LM(g_i) is divisible by the leading monomial of an earlier nonzero divisor, zero divisors have quotient zero, and together with f = q_1 g_1 + ... + r and the reducedness of r this determines the quotients and the remainder uniquely.", "quantifier": "all polynomials and divisors, all four orders", "why_tests_cant": "uniqueness among all possible quotients and remainders", "anchors": ["src/poly/comp.rs::Computer::divide"]}
{"id": "C121", "title": "The result of divide depends only on the polynomials", "statement": "The terms of every quotient are in strictly descending order, and however the terms of the dividend and divisors are listed, the remainder and quotients have the same terms in the same order.", "quantifier": "all polynomials and divisors, all listings of their terms, all four orders", "why_tests_cant": "relation between two runs on all inputs", "anchors": ["src/poly/comp.rs::Computer::divide"]}
{"id": "C122", "title": "divide is linear in the dividend", "statement": "For fixed divisors, a Groebner basis or not, the remainder and each quotient of a f1 + b f2 are the same combination of those of f1 and f2; a multiple h g_i whose monomials no earlier divisor takes is divided with quotient h and remainder zero.", "quantifier": "all polynomials, divisors and scalars, all four orders", "why_tests_cant": "relation between three runs on all inputs", "anchors": ["src/poly/comp.rs::Computer::divide"]}
{"id": "C123", "title": "The order of the terms of sums and products", "statement": "p + q lists the terms of p in order, each with the coefficient of q at its multidegree added and left out if zero, then the terms of q with new multidegrees in order; -p and p * t keep the order; p * q adds the products t * q from the first t in p to the last.", "quantifier": "all coefficient types, both builds, all canonical polynomials", "why_tests_cant": "exact output for all term lists, also with rounding coefficients", "anchors": ["src/poly/elts.rs::Add for Polynomial", "src/poly/elts.rs::Sub for Polynomial", "src/poly/elts.rs::Neg for Polynomial", "src/poly/elts.rs::Mul for &Polynomial", "src/poly/elts.rs::Mul<Term> for Polynomial"]}
{"id": "C124", "title": "Which polynomials buchberger_algorithm keeps", "statement": "The result is made from the generators followed by added monic elements of the ideal (each with a leading monomial divisible by none before it, terms descending): exactly those polynomials remain whose leading monomial no other one's divides, of several with the same leading monomial the last.", "quantifier": "all lists of nonzero polynomials, all four orders", "why_tests_cant": "exact output of a loop that restarts after each removal, on all lists", "anchors": ["src/poly/comp.rs::Computer::buchberger_algorithm"]}
{"id": "C125", "title": "The order of the basis elements", "statement": "Of the polynomials kept, those without reducible terms come first, unchanged and in their order; after them come the others in their order, each replaced by the polynomial with the same leading term, congruent modulo the ideal, without reducible terms, its terms in descending order.", "quantifier": "all lists of nonzero polynomials, all four orders", "why_tests_cant": "exact output of a loop that restarts after each replacement, on all lists", "anchors": ["src/poly/comp.rs::Computer::buchberger_algorithm"]}
{"id": "C126", "title": "Cone::new over every coefficient type", "statement": "If Cone::new returns, its facets are, in lexicographic order of the positions of their generators, exactly those made of dim-1 generators of computed rank dim-1, with the first computed kernel vector (negated if its product with the first generator is below zero) as normal, for which that product is comparable with zero and the product of the normal with every generator compares as equal to or above zero; an undefined comparison leaves the subset out and is never a reason to panic. Over f32 and f64 no recorded normal has a NaN or negative product with a generator.", "quantifier": "all coefficient types (f32 and f64 included), all generator lists, both builds", "why_tests_cant": "universal over implementations of the traits; NaN cases", "anchors": ["src/linalg/cone.rs::Cone::new"]}
{"id": "C127", "title": "Displayed f32 and f64 coefficients are exact and shortest", "statement": "The text of a finite f32 or f64 coefficient is a decimal number without superfluous zeros that reads back as the same number, has at most 17 (f32: 9) significant digits, no more than any other decimal number reading back as it, and is nearest to it among those with as many places; distinct f32 and f64 have distinct texts.", "quantifier": "all finite f32 and f64 (for distinctness all f32 and f64)", "why_tests_cant": "2^64 values", "anchors": ["src/poly/display.rs::Display for Polynomial<f64>", "src/poly/display.rs::Display for Term"]}
{"id": "C128", "title": "Displayed f64 polynomials determine the polynomial", "statement": "Displaying a Polynomial<f64> never panics, and two polynomials with coefficients that are not NaN (infinities and zeros allowed) and canonical multidegrees have the same text only if they are equal, except that the single constant term 0.0 displays like the polynomial without terms. Each term after the first is written as plus or minus, by its sign bit, followed by the text of the term with the absolute value, in which there is no minus sign.", "quantifier": "all pairs of such polynomials", "why_tests_cant": "relation between two runs on all inputs", "anchors": ["src/poly/display.rs::Display for Polynomial<f64>", "src/poly/display.rs::Display for Term", "src/poly/display.rs::Display for MultiDegree"]}
{"id": "C129", "title": "Rounding error of f32 and f64 arithmetic", "statement": "A finite f32 or f64 sum or difference is the exact one up to a relative error of 2^-53, a finite product or quotient up to a relative error of 2^-53 plus an absolute error of 2^-1075; the result is finite whenever the operands are and the exact result is below 2^1024 - 2^970. For f32 read 2^-24 for 2^-53, 2^-150 for 2^-1075 and 2^128 - 2^103 for 2^1024 - 2^970.", "quantifier": "all pairs of f32 and f64", "why_tests_cant": "2^128 pairs", "anchors": ["src/core/num/traits.rs::field_impl"]}
{"id": "C130", "title": "Rounding error of f32 and f64 sums of products", "statement": "dot, frobenius_norm and every entry of a matrix product over f32 and f64, when finite, differ from the exact sum of n products by at most ((1+2^-53)^n - 1) times the sum of the absolute values of the products plus n (1+2^-53)^n 2^-1075; dot is finite when the entries are and (1+2^-53)^n (sum of |products| + n 2^-1075) is below 2^1024 - 2^970. For f32 read 2^-24 for 2^-53, 2^-150 for 2^-1075 and 2^128 - 2^103 for 2^1024 - 2^970.", "quantifier": "all f32 and f64 matrices of all sizes", "why_tests_cant": "all sizes and all values", "anchors": ["src/linalg/mat.rs::Mat::dot", "src/linalg/mat.rs::Mat::frobenius_norm", "src/linalg/mat.rs::Mul for Mat"]}
{"id": "C131", "title": "Backward error of lu over f32 and f64", "statement": "Over f32 and f64, wherever u(i,j) and l(i,i) are finite, the entries (i,j) of p M and of the exact product of the returned l and u differ by at most ((1+2^-53)^(n+7) - 1) (|l| |u|)(i,j) + (1+2^-53)^n (n + 2|l(i,i)|) 2^-1075, n being the number of rows; p is a permutation matrix. For f32 read 2^-24 for 2^-53, 2^-150 for 2^-1075 and 2^128 - 2^103 for 2^1024 - 2^970.", "quantifier": "all f32 and f64 matrices of all sizes", "why_tests_cant": "all sizes and all values", "anchors": ["src/linalg/algorithm.rs::Mat::lu"]}
{"id": "C132", "title": "Rounding error of f32 and f64 polynomial arithmetic", "statement": "Over f32 and f64, every finite coefficient of p + q and p - q is the sum or difference of the coefficients up to a relative error of 2^-53, and every finite coefficient of p * q differs from the exact sum of its k products of coefficients by at most ((1+2^-53)^k - 1) times the sum of their absolute values plus k (1+2^-53)^k 2^-1075, cancelled and skipped terms included; coefficients of p + q and p - q are finite when the exact ones are below 2^1024 - 2^970, those of p * q under the corresponding bound. For f32 read 2^-24 for 2^-53, 2^-150 for 2^-1075 and 2^128 - 2^103 for 2^1024 - 2^970.", "quantifier": "all f32 and f64 polynomials with distinct canonical multidegrees (for products also without zero coefficients)", "why_tests_cant": "all sizes and all values; cancellation removes and re-creates terms", "anchors": ["src/poly/elts.rs::Add for &Polynomial", "src/poly/elts.rs::Sub", "src/poly/elts.rs::Mul for &Polynomial"]}
{"id": "C133", "title": "Radical membership", "statement": "With x_k a variable that occurs neither in the generators nor in f, buchberger_algorithm on the generators and 1 - x_k * f returns a single nonzero constant exactly when some power of f is in the ideal, that is, exactly when f vanishes at all common zeros over an algebraic closure.", "quantifier": "all lists of nonzero polynomials and all f in k variables, all four orders", "why_tests_cant": "equivalence with an infinite statement, on all inputs", "anchors": ["src/poly/comp.rs::Computer::buchberger_algorithm", "src/poly/elts.rs::Polynomial"]}
{"id": "C134", "title": "Saturation of an ideal", "statement": "The elements without x_k of the RevLex basis of the generators and 1 - x_k * f generate the saturation: exactly the polynomials g for which f^N g is in the ideal for some N.", "quantifier": "all lists of nonzero polynomials and all f in k variables", "why_tests_cant": "ideal equality on all inputs", "anchors": ["src/poly/comp.rs::Computer::buchberger_algorithm", "src/poly/ord.rs::RevLex"]}
{"id": "C135", "title": "Intersection of ideals", "statement": "The elements without x_k of the RevLex basis of the x_k g for g in the first list and the g - x_k g for g in the second generate the intersection of the two ideals; for single polynomials f and g, exactly the common multiples of f and g.", "quantifier": "all pairs of lists of nonzero polynomials in k variables", "why_tests_cant": "ideal equality on all inputs", "anchors": ["src/poly/comp.rs::Computer::buchberger_algorithm", "src/poly/ord.rs::RevLex"]}
{"id": "C136", "title": "divide by one polynomial is division with remainder", "statement": "divide(f, [g]) with g nonzero returns one quotient; the remainder is zero exactly when g divides f; quotient and remainder are the only pair with f = q g + r in which no term of r is divisible by the leading term of g.", "quantifier": "all f and all nonzero g, all four orders", "why_tests_cant": "uniqueness over all polynomials", "anchors": ["src/poly/comp.rs::Computer::divide"]}
{"id": "C137", "title": "Quotient of an ideal by a polynomial", "statement": "Dividing each of the generators of the intersection of the ideal with (f) by f gives generators of the ideal quotient: exactly the g with f g in the ideal.", "quantifier": "all lists of nonzero polynomials and all nonzero f in k variables, all four orders for divide", "why_tests_cant": "ideal equality on all inputs", "anchors": ["src/poly/comp.rs::Computer::buchberger_algorithm", "src/poly/comp.rs::Computer::divide"]}
{"id": "C138", "title": "Backward error of row_echelon over f32 and f64", "statement": "Let row_echelon and lu both return on a matrix of f32 or f64 (n rows, n*n below 2^64). With P, L the p, l of lu, and B, Q the b and p of row_echelon: wherever the entries of B, Q and the diagonal of L are finite, P*M - L*B and P - L*Q are, entry by entry, at most ((1+2^-53)^(n+7) - 1) times |L||B| and |L||Q|, plus (1+2^-53)^n (n + 2|L(i,i)|) 2^-1075. Hence L*(B - Q*M) is at most the same factor times |L|(|B| + |Q||M|) plus a multiple of 2^-1075. For f32 read 2^-24 for 2^-53, 2^-150 for 2^-1075 and 2^128 - 2^103 for 2^1024 - 2^970.", "quantifier": "all f32 and f64 matrices of any size, both builds", "why_tests_cant": "rounding errors depend on every entry; samples cannot bound them", "anchors": ["src/linalg/algorithm.rs::Mat::row_echelon", "src/linalg/algorithm.rs::RowEquivalentForm", "src/linalg/mat.rs::Mat::replace_row"]}
{"id": "C139", "title": "Backward error of to_rref over f32 and f64", "statement": "For every row-equivalent form over f32 and f64 there is an upper triangular matrix V with ones on the diagonal such that b and p before to_rref are V times b and p after it, up to ((1+2^-53)^(n-1) - 1) times |V| times the absolute values of the result, plus (n-1)(1+2^-53)^(n-1) 2^-1075, wherever the result is finite. For f32 read 2^-24 for 2^-53, 2^-150 for 2^-1075 and 2^128 - 2^103 for 2^1024 - 2^970.", "quantifier": "all f32 and f64 forms of any size, both builds", "why_tests_cant": "rounding errors depend on every entry; samples cannot bound them", "anchors": ["src/linalg/algorithm.rs::RowEchelonForm::to_rref", "src/linalg/mat.rs::Mat::replace_row"]}
{"id": "C140", "title": "Homogeneous generators give a homogeneous basis", "statement": "If every generator is homogeneous for a grading of the variables (by any commutative monoid), so is every element of the basis returned by buchberger_algorithm, and the remainder of a homogeneous polynomial modulo a homogeneous Groebner basis is homogeneous of the same degree.", "quantifier": "all lists of nonzero polynomials, all gradings, all four orders", "why_tests_cant": "universal over gradings and inputs", "anchors": ["src/poly/comp.rs::Computer::buchberger_algorithm", "src/poly/comp.rs::Computer::divide"]}
{"id": "C141", "title": "The number of solutions is bounded by the standard monomials", "statement": "If only finitely many monomials are divisible by no leading monomial of the returned basis, the generators have finitely many common zeros in every field extension, at most as many as these monomials.", "quantifier": "all lists of nonzero polynomials, all field extensions, all four orders", "why_tests_cant": "statement about all points of all extension fields", "anchors": ["src/poly/comp.rs::Computer::buchberger_algorithm"]}
{"id": "C142", "title": "Hilbert functions from the leading monomials", "statement": "With GrLex and GRevLex the number of monomials of degree at most d divisible by no leading monomial of the basis is the dimension of the polynomials of degree at most d modulo the ideal; with any order and homogeneous generators the number of those of degree d is the dimension of the part of degree d of the quotient ring.", "quantifier": "all lists of nonzero polynomials, all d, all gradings", "why_tests_cant": "dimension of an infinite family of vector spaces", "anchors": ["src/poly/comp.rs::Computer::buchberger_algorithm", "src/poly/ord.rs::GrLex", "src/poly/ord.rs::GRevLex"]}
{"id": "C143", "title": "Relations between polynomials", "statement": "For polynomials f_0, ..., f_(r-1) in x_0, ..., x_(n-1), the elements without x_0, ..., x_(n-1) of the Lex basis of the x_(n+j) - f_j generate the ideal of all polynomial relations between the f_j; there are none exactly when the f_j are algebraically independent.", "quantifier": "all lists of polynomials in n variables", "why_tests_cant": "ideal equality on all inputs", "anchors": ["src/poly/comp.rs::Computer::buchberger_algorithm", "src/poly/ord.rs::Lex", "src/poly/elts.rs::Polynomial"]}
{"id": "C144", "title": "Membership in a subalgebra", "statement": "A polynomial f in x_0, ..., x_(n-1) is a polynomial in f_0, ..., f_(r-1) exactly when its remainder modulo the Lex basis of the x_(n+j) - f_j contains none of x_0, ..., x_(n-1); putting the f_j into such a remainder gives f.", "quantifier": "all f and all lists of polynomials in n variables", "why_tests_cant": "equivalence with an infinite statement, on all inputs", "anchors": ["src/poly/comp.rs::Computer::buchberger_algorithm", "src/poly/comp.rs::Computer::divide", "src/poly/ord.rs::Lex"]}
{"id": "C145", "title": "Groebner bases of linear polynomials are reduced row echelon forms", "statement": "For nonzero polynomials of degree at most one in x_0, ..., x_(d-1) and an order with x_0 > x_1 > ... (Lex, GrLex and GRevLex are), let M be the matrix of their coefficients with the constant terms in the last column. If to_rref finds a pivot in the last column of M, buchberger_algorithm returns a constant; otherwise the elements it returns are, up to nonzero factors, the nonzero rows of the reduced row echelon form.", "quantifier": "all lists of polynomials of degree at most one, over every lawful field", "why_tests_cant": "two independent algorithms compared on all inputs", "anchors": ["src/poly/comp.rs::Computer::buchberger_algorithm", "src/linalg/algorithm.rs::to_rref", "src/linalg/algorithm.rs::Mat::row_echelon", "src/poly/ord.rs::Lex"]}
{"id": "C146", "title": "Inclusion and equality of ideals", "statement": "Every polynomial of a list has remainder zero modulo buchberger_algorithm(gens) exactly when the list generates a subideal of the ideal of gens; testing both ways decides equality of ideals.", "quantifier": "all lists of polynomials and all monomial orders", "why_tests_cant": "equivalence with a statement about infinite ideals", "anchors": ["src/poly/comp.rs::Computer::buchberger_algorithm", "src/poly/comp.rs::Computer::divide"]}
{"id": "C147", "title": "Coprime leading monomials", "statement": "If the leading monomials of the generators are pairwise coprime, buchberger_criterion answers true; if besides none of them is 1, buchberger_algorithm returns a basis with exactly the same leading monomials.", "quantifier": "all lists of nonzero polynomials with pairwise coprime leading monomials, all monomial orders", "why_tests_cant": "quantifies over all such lists", "anchors": ["src/poly/comp.rs::Computer::buchberger_criterion", "src/poly/comp.rs::Computer::buchberger_algorithm"]}
{"id": "C148", "title": "Equality of terms is an equivalence", "statement": "Term implements Eq: == is reflexive, symmetric and transitive, and over exact coefficients (Rational, or any exact field) two terms are == exactly when coefficient and multidegree are the same. Over f32 and f64 it is symmetric and transitive and means equal values (or the same infinity) and the same multidegree.", "quantifier": "all pairs of terms, both build profiles, both float formats", "why_tests_cant": "NaN, signed zeros and infinities are rarely sampled", "anchors": ["src/poly/elts.rs::Term"]}
{"id": "C149", "title": "Equality of matrices", "statement": "Mat's derived == holds between two matrices that represent the same mathematical matrix; == is symmetric and transitive, over exact fields it is equality, and finite float matrices that are == are epsilon_equals.", "quantifier": "all pairs of matrices over every coefficient type", "why_tests_cant": "equal values with different representations arise only after arithmetic", "anchors": ["src/linalg/mat.rs::Mat", "src/linalg/mat.rs::Mat::epsilon_equals"]}
{"id": "C150", "title": "Elimination leaves echelon forms alone", "statement": "A matrix in row echelon form with unit pivots is returned unchanged by row_echelon (with p the identity) and by lu (with p and l identities); one in reduced row echelon form is returned unchanged by row_echelon().to_rref(). Hence eliminating twice is eliminating once. Conversely, a matrix that row_echelon returns unchanged is in row echelon form.", "quantifier": "all matrices in echelon form, all sizes, over every lawful field", "why_tests_cant": "tests check the shape of results, not that all fixed points are fixed", "anchors": ["src/linalg/algorithm.rs::Mat::row_echelon", "src/linalg/algorithm.rs::Mat::lu", "src/linalg/algorithm.rs::to_rref"]}
{"id": "C151", "title": "When a sum of rationals overflows", "statement": "With overflow checks, the sum of a nonempty list of positive rationals returns exactly when the product D of the denominators and D times the sum are below 2^63; the result then has denominator D and is exact. For any signs, D and D times the sum of the absolute values being below 2^63 is sufficient, in either build.", "quantifier": "all lists of rationals", "why_tests_cant": "the threshold depends on all denominators, not on the value; fifty-nine halves overflow", "anchors": ["src/core/num/rat.rs::Sum", "src/core/num/rat.rs::Add"]}
{"id": "C152", "title": "Finitely many solutions", "statement": "A system of polynomial equations has finitely many solutions in an algebraic closure exactly when for every variable some element of buchberger_algorithm's result has a power of that variable as its leading monomial. With Lex the result is then triangular: these elements involve only that variable and later ones.", "quantifier": "all lists of nonzero polynomials, all monomial orders, all lawful fields", "why_tests_cant": "equivalence with a statement about infinitely many points (Nullstellensatz)", "anchors": ["src/poly/comp.rs::Computer::buchberger_algorithm", "src/poly/ord.rs::Lex"]}
{"id": "C153", "title": "Back substitution", "statement": "If the equations have finitely many solutions, every common zero (in an algebraic closure) of the elements of the Lex basis that do not involve x_0, ..., x_(k-1) extends to a solution of the equations; conversely the projections of solutions are such zeros.", "quantifier": "all lists of nonzero polynomials with finitely many common zeros, all k", "why_tests_cant": "quantifies over points with algebraic coordinates", "anchors": ["src/poly/comp.rs::Computer::buchberger_algorithm", "src/poly/ord.rs::Lex"]}
{"id": "C154", "title": "As many solutions as standard monomials", "statement": "Over a perfect field (such as the rationals), if a system of polynomial equations has finitely many solutions in an algebraic closure, their number equals the number of monomials divisible by no leading monomial of buchberger_algorithm's result exactly when the ideal is radical.", "quantifier": "all lists of nonzero polynomials with finitely many common zeros, all monomial orders, all lawful perfect fields", "why_tests_cant": "counts points with algebraic coordinates against the shape of the result", "anchors": ["src/poly/comp.rs::Computer::buchberger_algorithm"]}
{"id": "C155", "title": "Division and Buchberger's algorithm end without overflow checks", "statement": "In a build without overflow checks divide and buchberger_algorithm return on all canonical inputs over the rationals.", "quantifier": "all monomial orders, all canonical polynomials", "why_tests_cant": "termination; the failing inputs need an exponent above 255, where u8 wraps to a multidegree that is not canonical", "anchors": ["src/poly/comp.rs::Computer::divide", "src/poly/comp.rs::Computer::buchberger_algorithm", "src/poly/mdeg.rs::MultiDegree"]}
{"id": "C156", "title": "Buchberger's algorithm ends over floats", "statement": "buchberger_algorithm and buchberger_criterion return on all canonical inputs over f32 and f64.", "quantifier": "all monomial orders, all canonical polynomials", "why_tests_cant": "termination; the failing inputs need a quotient of coefficients that underflows", "anchors": ["src/poly/comp.rs::Computer::buchberger_algorithm", "src/poly/comp.rs::Computer::buchberger_criterion"]}
{"id": "C157", "title": "Polynomial arithmetic without overflow checks is exact modulo x^256 = 1", "statement": "In a build without overflow checks, over an exact field, sums, differences and negatives of polynomials are exact, products are exact modulo x_i^256 = 1 (for every variable), and when divide returns, f = q_1 g_1 + ... + q_m g_m + r holds modulo x_i^256 = 1; when buchberger_extend returns, it has only appended polynomials of the ideal generated by its input and the x_i^256 - 1.", "quantifier": "all polynomials (canonical or not), all comparisons of multidegrees, all exact fields", "why_tests_cant": "relates wrapped exponents to an algebraic identity for all inputs", "anchors": ["src/poly/elts.rs::Polynomial", "src/poly/comp.rs::Computer::divide", "src/poly/comp.rs::Computer::buchberger_extend", "src/poly/mdeg.rs::MultiDegree"]}
{"id": "C158", "title": "Numbers without overflow checks", "statement": "In a build without overflow checks the integer operations return the i64 congruent to the exact result modulo 2^64. Sums, differences, negatives and reciprocals of rationals return numerator and denominator computed modulo 2^64, zero if the numerator is a multiple of 2^64; products and quotients are new() of the products modulo 2^64. new(n, d) panics exactly if d = 0 or (n, d) is (MIN, -1) or (-1, MIN); otherwise it cancels the gcd, with a positive denominator unless d = MIN, and has the wrong sign exactly if d < 0 and one of n and d, but not the other, is MIN (and the value is not zero).", "quantifier": "all pairs of rationals, all i64 n and d", "why_tests_cant": "complete description of wrapping behaviour over all i64", "anchors": ["src/core/num/int.rs::Integer", "src/core/num/rat.rs::Rational::new", "src/core/num/rat.rs::Rational"]}
{"id": "C159", "title": "Rationals stay well formed without overflow checks", "statement": "In a build without overflow checks, sums and products of rationals in lowest terms return rationals with a positive denominator.", "quantifier": "all pairs of rationals in lowest terms", "why_tests_cant": "false only when products reach 2^63", "anchors": ["src/core/num/rat.rs::Add", "src/core/num/rat.rs::Mul", "src/core/num/rat.rs::Rational::new"]}
{"id": "C160", "title": "Monomial orders without overflow checks", "statement": "In a build without overflow checks Lex and RevLex compare as with checks, and GrLex and GRevLex compare the total degrees modulo 256 first. All four remain total orders on canonical multidegrees, but GrLex and GRevLex do not respect multiplication, even by monomials whose product overflows no exponent: GRevLex puts x y^255 below 1.", "quantifier": "all canonical multidegrees", "why_tests_cant": "total degrees above 255 do not occur in tests", "anchors": ["src/poly/ord.rs::GrLex", "src/poly/ord.rs::GRevLex", "src/poly/ord.rs::Lex", "src/poly/ord.rs::RevLex", "src/poly/mdeg.rs::MultiDegree::total_deg"]}
{"id": "C161", "title": "Elimination of small rational matrices never overflows", "statement": "For a rational matrix with numerators up to p and denominators up to q, row_echelon, lu, to_rref and compute_kernel return, the same in both build profiles, as long as an explicit recursion in p, q and the number of rows stays below 2^63; the recursion also bounds the entries of the results row by row. For integer matrices with any number of columns, row_echelon and lu return for two rows and entries up to 1664510, three rows and up to 41, four rows and up to 2, five rows and up to 1; row_echelon, to_rref and compute_kernel for two rows and up to 4705, three rows and up to 2. A two-row matrix with an entry 1664512 overflows.", "quantifier": "all rational matrices, all sizes, both build profiles", "why_tests_cant": "a guarantee for all matrices of a size; random matrices rarely come near the bound", "anchors": ["src/linalg/algorithm.rs::Mat::row_echelon", "src/linalg/algorithm.rs::Mat::lu", "src/linalg/algorithm.rs::to_rref", "src/linalg/algorithm.rs::compute_kernel", "src/core/num/rat.rs::Rational"]}
{"id": "C162", "title": "When the Groebner basis routines certainly return", "statement": "Over an exact field: in one variable divide and buchberger_algorithm return on all canonical (for buchberger_algorithm nonzero) inputs, with each of the four orders and the same in both builds, and buchberger_algorithm returns a single polynomial, a greatest common divisor. In several variables with GrLex or GRevLex, if no total degree of a term or of the least common multiple of two leading monomials exceeds 255 (for instance if all total degrees are at most 127), buchberger_criterion returns the right answer, and buchberger_algorithm returns if the list is a Groebner basis.", "quantifier": "all such lists of polynomials over all exact fields, both builds", "why_tests_cant": "totality over infinitely many inputs; overflow of u8 exponents is never sampled", "anchors": ["src/poly/comp.rs::Computer::buchberger_algorithm", "src/poly/comp.rs::Computer::buchberger_criterion", "src/poly/comp.rs::Computer::divide", "src/poly/mdeg.rs::MultiDegree"]}
{"id": "C163", "title": "num_to_seq and mat_iterator without overflow checks", "statement": "In a build without overflow checks num_to_seq(n, base) with base >= 2 yields the digits of (n*base mod 2^64)/base, which is n if n*base < 2^64 and less than n otherwise. mat_iterator(n, m, values) with k > 0 values yields k^e mod 2^64 items of (n*m mod 2^64) entries each, where e = (n*m mod 2^64) mod 2^32, entry t of item i being values[x / k^t mod k] with x = (i*k mod 2^64)/k: all matrices in order if nothing wraps, items repeating earlier ones from the i with i*k >= 2^64 on, none at all for 64 entries out of two values. With no values it yields nothing, or panics if e = 0. It always ends.", "quantifier": "all n, m, bases and value lists", "why_tests_cant": "the wrapped range starts at 2^64, beyond what a test can iterate", "anchors": ["src/linalg/util.rs::num_to_seq", "src/linalg/util.rs::mat_iterator"]}
{"id": "C164", "title": "Results have no other coefficients than those generated by the input", "statement": "divide returns remainder and quotients whose coefficients lie in every ring that contains the coefficients of the inputs and the inverses of the leading coefficients of the divisors; for rationals: with integer coefficients and leading coefficients 1 or -1 the results have integer coefficients, also without overflow checks. buchberger_algorithm, lu, row_echelon, to_rref, compute_kernel and Cone::new return coefficients in every field that contains those of the input. Sums, differences, negatives and products of polynomials, sums, products, scalings and dot products of matrices with integer rational entries have integer entries (denominator exactly 1), also without overflow checks.", "quantifier": "all inputs for which the routine returns, all subrings and subfields, all orders, both builds", "why_tests_cant": "membership in an arbitrary subring cannot be sampled", "anchors": ["src/poly/comp.rs::Computer::divide", "src/poly/comp.rs::Computer::buchberger_algorithm", "src/linalg/algorithm.rs::Mat::row_echelon", "src/linalg/algorithm.rs::Mat::lu", "src/linalg/algorithm.rs::to_rref", "src/linalg/algorithm.rs::compute_kernel", "src/linalg/cone.rs::Cone::new", "src/poly/elts.rs::Polynomial"]}
{"id": "C165", "title": "Unused variables and larger fields do not change the results", "statement": "If new variables that do not occur are inserted at any positions, then the sum, difference and product of polynomials, quotients by scalars, leading_term, sort_terms, divide, try_reduce and buchberger_algorithm return exactly the results for the original polynomials with the same variables inserted, and buchberger_criterion returns the same answer, for the four orders, every coefficient type and both builds; a panic or an endless run stays the same panic or endless run. Likewise extending an exact field of coefficients along a homomorphism of fields commutes with products, divide, try_reduce, buchberger_criterion and buchberger_algorithm with any order, and with lu, row_echelon, to_rref, rank, compute_kernel, compute_range and Cone::new if the homomorphism respects the tests for zero, the choice of pivots and the signs.", "quantifier": "all inputs, all coefficient types, orders, positions and homomorphisms of fields, both builds", "why_tests_cant": "a relation between pairs of runs, including runs that panic or do not end", "anchors": ["src/poly/comp.rs::Computer::divide", "src/poly/comp.rs::Computer::try_reduce", "src/poly/comp.rs::Computer::buchberger_criterion", "src/poly/comp.rs::Computer::buchberger_algorithm", "src/poly/mdeg.rs::MultiDegree", "src/poly/ord.rs::Lex", "src/poly/ord.rs::RevLex", "src/poly/ord.rs::GrLex", "src/poly/ord.rs::GRevLex", "src/linalg/algorithm.rs::Mat::row_echelon", "src/linalg/algorithm.rs::Mat::lu", "src/linalg/cone.rs::Cone::new"]}
{"id": "C166", "title": "Reordering, repeating and rescaling generators of a cone", "statement": "Cone::new for two lists of generators that contain the same rays (in any order, with repetitions and positive factors) and whose first generators span the same ray gives the same dimension, the same orth_comp_basis in the same order, and the same set of facet normals. The first generator matters: exchanging e1 and -e2 changes the recorded facets. The reason for the second part: compute_kernel of row_echelon().to_rref() depends only on the span of the rows, for any numbers of rows.", "quantifier": "all lists of generators of any length and dimension over exact ordered fields and over Rational as long as nothing overflows", "why_tests_cant": "relation between pairs of runs on arbitrary permutations", "anchors": ["src/linalg/cone.rs::Cone::new", "src/linalg/algorithm.rs::compute_kernel"]}
{"id": "C167", "title": "Monomial and binomial ideals", "statement": "If every generator is a term, buchberger_algorithm returns single terms, one for each monomial of a generator that no other divides, and divide by terms keeps exactly the terms that none of them divides. If no generator has more than two terms, neither has any element of the result; more precisely if the generators are a x^s or a(x^s - c x^t) with c in a group H of factors, so are the elements of the result, and the remainder of a x^s modulo such a basis is zero or a c x^t with c in H.", "quantifier": "all such lists over exact fields and over Rational as long as nothing overflows, all four orders, any number of variables", "why_tests_cant": "structure of the result for infinitely many inputs", "anchors": ["src/poly/comp.rs::Computer::buchberger_algorithm", "src/poly/comp.rs::Computer::divide"]}
{"id": "C168", "title": "The word problem of commutative monoids", "statement": "For generators x^a - x^b, the remainder of a monomial x^s modulo the result of buchberger_algorithm is a monomial with coefficient 1, the least one in the order among the x^u with u congruent to s in the congruence generated by the pairs (a, b) on exponent vectors. Hence two monomials have the same remainder exactly if they are congruent.", "quantifier": "all lists of pairs of exponent vectors, all monomials, the four orders", "why_tests_cant": "congruence classes are infinite; deciding them is what the routines are for", "anchors": ["src/poly/comp.rs::Computer::buchberger_algorithm", "src/poly/comp.rs::Computer::divide"]}
{"id": "C169", "title": "Size of a basis with finitely many standard monomials", "statement": "If only D monomials are divisible by no leading monomial of the result of buchberger_algorithm in n variables, then the result has at most n D elements (one if D = 0), every leading monomial has total degree at most D, and every element at most D + 1 terms. Remainders modulo a list of nonzero polynomials with D such monomials have at most D terms, each of total degree below D.", "quantifier": "all lists of nonzero canonical polynomials, the four orders", "why_tests_cant": "bounds for all inputs", "anchors": ["src/poly/comp.rs::Computer::buchberger_algorithm", "src/poly/comp.rs::Computer::divide"]}
{"id": "C170", "title": "Arithmetic on polynomials that are not in canonical form", "statement": "Sums, differences, negatives and products of terms and polynomials, scaling and division by a scalar, and eval give the right values also if the operands have repeated multidegrees, zero coefficients or multidegrees ending in zeros, as new, new_unchecked and the public fields allow; with the same panics as otherwise. Whatever divide returns satisfies f = sum q_i g_i + r for such operands too, for every comparison of multidegrees, be it an order or not. Adding such a list of terms with trimmed multidegrees onto zero gives the canonical form.", "quantifier": "all lists of terms with well-formed coefficients, exact fields and Rational with overflow checks", "why_tests_cant": "all ways of breaking the canonical form, any number of terms", "anchors": ["src/poly/elts.rs::Polynomial", "src/poly/elts.rs::Polynomial::eval", "src/poly/comp.rs::Computer::divide"]}
{"id": "C171", "title": "divide needs canonical dividends", "statement": "divide never returns if the leading term of the dividend has coefficient zero and the first divisor is not empty. If the dividend is Polynomial::new([a x^m, b x^m]) and the divisor is e x^m, then divide returns no result unless a is a natural multiple of b: for 2x + 3x by x it runs forever over an exact field of characteristic zero, and over Rational with overflow checks until the coefficient overflows.", "quantifier": "all coefficient types and comparisons (first part), all lawful fields, coefficients and multidegrees (second part)", "why_tests_cant": "endless runs cannot be observed; the overflow comes after 3*10^18 iterations", "anchors": ["src/poly/comp.rs::Computer::divide", "src/poly/elts.rs::Polynomial::new"]}
{"id": "C172", "title": "Signs, infinities and NaNs in the field operations on f32 and f64", "statement": "Exactly when +, -, *, /, neg and inv return a NaN; that infinite operands and zero divisors give the infinities and zeros with the sign of the rule of signs; that + and * are commutative down to the sign of zero; that changing the sign of an operand of * and / changes the sign of the result and nothing else; x - x is +0.0 for finite x, a sum is -0.0 only if both terms are, and x + 0.0 is x unless x is -0.0.", "quantifier": "all pairs of f32 and f64 values (NaNs identified)", "why_tests_cant": "2^128 pairs", "anchors": ["src/core/num/traits.rs::Field for f64"]}
{"id": "C173", "title": "What rank, nullity, compute_kernel and compute_range read off, for every coefficient type", "statement": "For any matrix b of a form, in echelon form or not, and any coefficient type: rank is the number of rows with an entry that is not epsilon_equals to zero; nullity is the number of columns minus it (an underflow if negative); compute_kernel returns one vector for each column that is not the first such column of a row, in increasing order, with 1 at this column c, 0 - b[r][c] at each column to the left that leads a row r (the last one if there are several) and 0 elsewhere; compute_range returns the columns of the original matrix that lead a row, each once. For f32 and f64 rank, compute_kernel and compute_range never panic.", "quantifier": "all forms over all coefficient types for which the zero test and the negation of the entries return, all orders of iteration of the hash set", "why_tests_cant": "rounded elimination produces forms that are not in echelon form", "anchors": ["src/linalg/algorithm.rs::RowEquivalentForm::rank", "src/linalg/algorithm.rs::RowEquivalentForm::nullity", "src/linalg/algorithm.rs::ReducedRowEchelonForm::compute_kernel", "src/linalg/algorithm.rs::ReducedRowEchelonForm::compute_range"]}
{"id": "C174", "title": "Displayed numbers, multidegrees and polynomials read back", "statement": "Reading the displayed text in the usual notation gives the value back: an Integer, a Rational (numerator over denominator), the exponents of a MultiDegree, and the list of coefficients and exponents of a Polynomial<Rational>, if no numerator after the first term is i64::MIN; x - 2^63 displays as x - -9223372036854775808 without overflow checks.", "quantifier": "all integers, rationals (well-formed or not), multidegrees and polynomials (canonical or not), both build profiles", "why_tests_cant": "unbounded inputs; a wrong but injective rendering passes round-trip comparisons of texts", "anchors": ["src/poly/display.rs::Display for Polynomial<Rational>", "src/poly/display.rs::Display for Term", "src/poly/display.rs::Display for MultiDegree", "src/core/num/rat.rs::Display for Rational", "src/core/num/int.rs::Display for Integer"]}
{"id": "C175", "title": "Buchberger's algorithm on generators that are not in canonical form", "statement": "For generators built with new_unchecked (zero coefficients, repeated monomials, trailing zero exponents), any comparison of multidegrees and any exact coefficient field: try_reduce returns a combination of its operands; if buchberger_algorithm returns, all it returns lies in the ideal of the generators, since its first phase only appends elements of the ideal, its second only drops generators and its third keeps the number of generators and the ideal. But the ideal can become smaller: from x and Polynomial::new_unchecked([0 x^2, y]) only x is returned, and buchberger_criterion accepts the two.", "quantifier": "all lists of lists of terms with exponents below 256, all orders, all exact fields", "why_tests_cant": "arbitrary ideals and internal representations; needs algebra to state", "anchors": ["src/poly/comp.rs::Computer::buchberger_algorithm", "src/poly/comp.rs::Computer::buchberger_criterion", "src/poly/comp.rs::Computer::try_reduce"]}
{"id": "C176", "title": "Displayed floats and polynomials over them read back", "statement": "Reading the displayed text of an f32 or f64 (decimal digits, rounded to nearest, or inf or NaN, possibly after a minus sign) gives the number back, with its sign if it is zero; reading that of a Polynomial<f64> gives the list of its coefficients and exponents back.", "quantifier": "all floats, all polynomials (canonical or not, with any coefficients), both formats", "why_tests_cant": "unbounded inputs; a wrong but injective rendering passes round-trip comparisons of texts", "anchors": ["src/poly/display.rs::Display for Polynomial<f64>", "src/poly/display.rs::Display for Term", "src/poly/display.rs::Display for MultiDegree"]}
{"id": "C177", "title": "Independent variables are read off leading monomials", "statement": "If every leading monomial of the result of buchberger_algorithm involves a variable outside a set S, no nonzero polynomial in the variables of S lies in the ideal of the input; with Lex and S = {x_k, x_(k+1), ...} this is an equivalence.", "quantifier": "all finite lists of nonzero canonical polynomials, all four orders, all sets of variables", "why_tests_cant": "unbounded inputs; a conclusion on all elements of an ideal", "anchors": ["src/poly/comp.rs::Computer::buchberger_algorithm"]}
{"id": "C178", "title": "Multiplication matrices and the values at the solutions", "statement": "Let s list the monomials divisible by no leading monomial of the result G of buchberger_algorithm. For polynomials f, the matrices whose columns are the coefficients of the remainders of the products of f and these monomials by divide(.., G) add and multiply like the polynomials, are equal exactly for polynomials congruent modulo the ideal, and the eigenvalues of that of f are exactly the values of f at the solutions of the equations in an algebraic closure.", "quantifier": "all finite lists of nonzero canonical polynomials with finitely many standard monomials, all four orders, all canonical f whose products and remainders are computed without panic", "why_tests_cant": "unbounded inputs; solutions in an algebraic closure cannot be computed", "anchors": ["src/poly/comp.rs::Computer::buchberger_algorithm", "src/poly/comp.rs::Computer::divide", "src/poly/elts.rs::Mul for &Polynomial"]}
{"id": "C179", "title": "Cones of small generators never overflow", "statement": "Cone::new over Rational returns, with the same result in builds with and without overflow checks, for any number of generators in the plane with integer coordinates up to 41 in absolute value, and in space with integer coordinates up to 2, provided they do not all lie on a line; in general it does as soon as explicit recursions that bound the numerators and denominators in the elimination, the kernel and the scalar products stay below 2^63. With larger coordinates it may overflow.", "quantifier": "all lists of generators of any length (length squared below 2^64) with bounded entries", "why_tests_cant": "all lists of any length; overflow depends on intermediate values only", "anchors": ["src/linalg/cone.rs::Cone::new"]}
{"id": "C180", "title": "The normals of the facets generate the dual cone", "statement": "Let Cone::new(gs) return a full-dimensional cone. The nonnegative combinations of the normals of its facets are exactly the vectors that have nonnegative products with all generators, if and only if every supporting hyperplane spanned by generators that contains the first generator has an inner normal whose last nonzero entry is positive. If so, and Cone::new on the list of the normals returns as well, this second cone is full-dimensional exactly when the original one contains no line; and if it is, and the condition holds for the normals too, its own normals generate the original cone again.", "quantifier": "all lists of generators over all lawful exact ordered fields, all dimensions", "why_tests_cant": "equality of infinite sets of vectors; the condition singles out the generators on which the sign choice of Cone::new goes wrong", "anchors": ["src/linalg/cone.rs::Cone::new"]}
{"id": "C181", "title": "Syzygies are read off the divisions of the S-polynomials", "statement": "Let G be a Groebner basis without zeros (for instance a list that buchberger_criterion accepts). For i < j let try_reduce return the S-polynomial of the i-th and j-th element, and let divide return its quotients by G. Then all remainders are zero, and the vectors with the cofactors of the S-polynomial at i and j, minus the quotients, generate all vectors of polynomials h with h_1 g_1 + ... + h_k g_k = 0.", "quantifier": "all Groebner bases over all lawful exact fields, all monomial orders, any number of variables; all syzygies", "why_tests_cant": "generation of an infinite module", "anchors": ["src/poly/comp.rs::Computer::try_reduce", "src/poly/comp.rs::Computer::divide", "src/poly/comp.rs::Computer::buchberger_criterion"]}
{"id": "C182", "title": "Matrices with a wrong number of entries", "statement": "Mat::new accepts any number of entries. If entries are appended to those of a matrix without changing its dimensions, then reading cells, rows and columns, transposing, multiplying, the triangularity tests, Display, rank, nullity, compute_kernel and compute_range return what they returned before, and swap, the row operations, lu, row_echelon and to_rref return the same result with the same entries appended; the sum and dot with a matrix without surplus entries and epsilon_equals with it ignore them, while == tells the matrices apart. If there are fewer entries than cells, transposing and reading the last row or column panics.", "quantifier": "all coefficient types, all matrices, all surplus entries, all calls that return on the matrix without them", "why_tests_cant": "all numbers of entries; ill-formed matrices are not covered by tests of well-formed ones", "anchors": ["src/linalg/mat.rs::Mat::new", "src/linalg/mat.rs::Mat::transpose", "src/linalg/mat.rs::Mul", "src/linalg/mat.rs::Add", "src/linalg/mat.rs::Mat::dot", "src/linalg/algorithm.rs::Mat::lu", "src/linalg/algorithm.rs::Mat::row_echelon", "src/linalg/algorithm.rs::to_rref"]}
{"id": "C183", "title": "Exponents and variables of the output", "statement": "Whatever sums, differences, products, divide (remainder and quotients) and buchberger_algorithm return contains only variables that occur in the input; and if every exponent of the k-th variable in the input is a multiple of c_k, so is every exponent of it in the output (with wrapping exponents if every c_k is 0 or divides 256). In particular polynomials in x^2 have Groebner bases in x^2.", "quantifier": "all coefficient types including floats, all orders, all lists of polynomials, canonical or not, all c, all calls that return", "why_tests_cant": "all inputs and all intermediate polynomials of the computation", "anchors": ["src/poly/elts.rs::Add", "src/poly/elts.rs::Sub", "src/poly/elts.rs::Mul", "src/poly/comp.rs::Computer::divide", "src/poly/comp.rs::Computer::buchberger_algorithm"]}
{"id": "C184", "title": "Systems in disjoint variables", "statement": "If the polynomials of gens1 contain only variables of a set S, those of gens2 only variables outside S, and neither buchberger_algorithm(gens1) nor buchberger_algorithm(gens2) contains a constant, then buchberger_algorithm of the concatenation of both lists consists, up to nonzero factors and order, exactly of the polynomials of the two results, and its length is the sum of their lengths.", "quantifier": "all monomial orders, all sets of variables, all pairs of lists of nonzero canonical polynomials for which the calls return", "why_tests_cant": "the two runs and the joint run take different steps; all inputs", "anchors": ["src/poly/comp.rs::Computer::buchberger_algorithm"]}
{"id": "C185", "title": "Rescaled variables", "statement": "If every variable x_i is replaced by a_i x_i with nonzero a_i, in the dividend and the divisors of divide or in the generators given to buchberger_algorithm, then remainder, quotients and (up to nonzero factors and order) Groebner basis are those of the original polynomials with the same replacement.", "quantifier": "all monomial orders, all nonzero factors, all canonical polynomials for which the calls return", "why_tests_cant": "relates two runs with different coefficients for all inputs", "anchors": ["src/poly/comp.rs::Computer::divide", "src/poly/comp.rs::Computer::buchberger_algorithm"]}
{"id": "C186", "title": "Division and evaluation of small integer polynomials", "statement": "divide of a polynomial f of total degree at most d with integer coefficients by polynomials with integer coefficients whose leading coefficients are 1 or -1, with GrLex or GRevLex in n variables or with any order in one variable: if (sum of |coefficients| of f) * (N+2)^binomial(n+d,n) is below 2^63 (for f64: at most 2^53, for f32: 2^24), where N bounds the sums of |coefficients| of the divisors and no total degree exceeds 255, then divide over Rational returns in both builds without overflow (for f64 and f32: without rounding), and quotients and remainder are the integer polynomials of the division over the rationals. Polynomial<Rational>::eval of an integer polynomial at integers returns the exact integer value if the sum over the terms of |c| * prod max(1,|x_i|)^e_i is below 2^63.", "quantifier": "all numbers of variables, degrees, dividends and lists of divisors within the stated bounds", "why_tests_cant": "the coefficients of intermediate polynomials grow exponentially with the number of passes; whether they can overflow depends on every pass", "anchors": ["src/poly/comp.rs::Computer::divide", "src/poly/elts.rs::Polynomial::eval", "src/core/num/rat.rs::Rational"]}
{"id": "C187", "title": "Differences of monomials never overflow in the coefficients", "statement": "For polynomials of the forms x^a, -x^a, x^a - x^b and x^b - x^a over Rational, in any number of variables and with any of the four orders: divide of one by any list of them, buchberger_criterion and buchberger_algorithm on any list of them never overflow an i64, however many steps they take; the only possible panic is that of a u8 exponent. The remainder and all elements of the basis are of these forms again (the remainder may be zero), the quotients have coefficients 1 and -1, and the release build returns the same. divide with GrLex or GRevLex, or in one variable, on such polynomials of total degree at most 255 never panics at all. For f32 and f64: divide under these bounds returns the division over the rationals, and buchberger_algorithm never rounds.", "quantifier": "all lists of such polynomials, all orders, all numbers of variables", "why_tests_cant": "the number of steps is not bounded by a function of the input size that could be enumerated; absence of overflow needs an invariant over all of them", "anchors": ["src/poly/comp.rs::Computer::divide", "src/poly/comp.rs::Computer::buchberger_algorithm", "src/poly/comp.rs::Computer::buchberger_criterion", "src/poly/comp.rs::Computer::try_reduce"]}
{"id": "C188", "title": "Release builds do what debug builds do, until the debug build stops at an overflow", "statement": "Every operation of Integer and Rational, of terms and polynomials (arithmetic, evaluation, Display), of the computer (leading terms, sorting, divide, try_reduce, buchberger_criterion and buchberger_algorithm with its three phases), of matrices (access, arithmetic, iteration, lu, row_echelon, to_rref, rank, nullity, kernel, range) and Cone::new, run with and without overflow checks on the same input, has the same outcome: the same value, the same panic, or no end in both. The only exception is that the run with checks panics with an integer overflow. The same holds over f32 and f64, where only u8 and usize can overflow.", "quantifier": "all inputs, canonical or not, also those on which a run panics or never ends", "why_tests_cant": "tests are run in one profile; and equality of runs without end cannot be tested", "anchors": ["src/core/num/int.rs::Integer", "src/core/num/rat.rs::Rational", "src/poly/elts.rs::Polynomial", "src/poly/comp.rs::Computer::divide", "src/poly/comp.rs::Computer::buchberger_algorithm", "src/linalg/mat.rs::Mat", "src/linalg/algorithm.rs::Mat::lu", "src/linalg/algorithm.rs::Mat::row_echelon", "src/linalg/cone.rs::Cone::new"]}
{"id": "C189", "title": "A computation over floats goes wrong only where an operation is not exact", "statement": "Compare a run over f32 or f64 in a debug build with the run that stops at the first operation whose result is not the exact one (rounding, overflow to infinity, NaN) or where epsilon_equals differs from equality. If that run finds no such operation, then the real run has the same outcome: the same value, the same panic or no end. Hence for divide and buchberger_algorithm on clean input: either some operation is not exact, or the real run stops at an exponent above 255, or it returns the division, respectively the reduced Groebner basis, over the rationals. In particular a run without end or with any other panic rounds somewhere. For generators that are monomials or differences of two monomials with coefficients 1 and -1 nothing ever rounds: the real run ends, at an exponent above 255 or with the reduced Groebner basis.", "quantifier": "all inputs over f32 and f64", "why_tests_cant": "the dichotomy covers every run, including those without end and those that panic; tests see single runs that return", "anchors": ["src/poly/comp.rs::Computer::divide", "src/poly/comp.rs::Computer::buchberger_algorithm", "src/poly/elts.rs::Polynomial", "src/linalg/algorithm.rs::Mat::row_echelon", "src/linalg/cone.rs::Cone::new"]}
{"id": "C190", "title": "A division treats every monomial at most once, which bounds the number of terms it produces", "statement": "Let divide return (r, qs) on canonical input. The monomials of r, and for every divisor the products of its leading monomial and the monomials of its quotient, are pairwise different, and none is above the leading monomial of the dividend. Hence with a graded order (grlex or grevlex), or in one variable, the remainder and all the quotients of a dividend of total degree at most d in n variables have together at most (n+d choose n) terms, however many divisors there are and whatever their degrees. The bound is attained, and fails for lex in two variables.", "quantifier": "all canonical dividends and divisor lists, every order, any number of variables", "why_tests_cant": "the bound is over all divisions, and distinctness is a relation between all the outputs of a run", "anchors": ["src/poly/comp.rs::Computer::divide"]}
{"id": "C191", "title": "Cone::new on generators with a wrong number of entries", "statement": "If the generators are columns with m rows that contain more than m entries (which Mat::new accepts), Cone::new does exactly what it does on the generators without the surplus entries: same facet normals, dimensions and orthogonal complement, the same panic, or no end. If a column has fewer entries than the first generator has rows, Cone::new panics with an index out of bounds. Generators with more rows than the first one are accepted, and can give normals that are longer than ambient_dim.", "quantifier": "all coefficient types, all lists of generators, any number of surplus entries", "why_tests_cant": "the equality covers panicking and endless runs over every coefficient type", "anchors": ["src/linalg/cone.rs::Cone::new", "src/linalg/mat.rs::Mat::from_row_vectors", "src/linalg/mat.rs::Mat::dot"]}
{"id": "C192", "title": "Commuted operands, also where the arithmetic is inexact or fails", "statement": "Sums and products of two Rationals have the same outcome in both orders (the same representation or the same panic, in both builds), those of two f32 or f64 are bit for bit the same, and cmp is reversed. Hence, for every coefficient type with this property: if p + q returns for polynomials without zero coefficients and repeated multidegrees, q + p returns the same terms in another order; dot and the sum of two matrices of any shapes have the same outcome in both orders; and the transpose of M * N is N^T * M^T entry by entry, where either both computations return or none. But brackets and the order of factors matter: (1/2 - 1/2) + 1/3 and 1/2 + (-1/2 + 1/3) are not == as Rationals, and for f32 and f64 there are polynomials for which p * q and q * p do not even have the same monomials.", "quantifier": "all coefficient types with commuting sums and products of two elements, all operands, also those on which the operations panic or round", "why_tests_cant": "tests compare results up to rounding for a few operands; this is equality of outcomes", "anchors": ["src/core/num/rat.rs::Rational", "src/poly/elts.rs::Add for Polynomial", "src/poly/elts.rs::Mul for Polynomial", "src/linalg/mat.rs::Mat::dot", "src/linalg/mat.rs::Mat::transpose", "src/linalg/mat.rs::Mul for Mat"]}
{"id": "C193", "title": "sort_terms is the stable sort of any polynomial", "statement": "For each of the four orders, sort_terms returns the one vector of terms that is ascending (of any two terms the earlier is smaller or has the same multidegree) and in which the terms of each multidegree are exactly those of the input, in the order they have there. This holds for every polynomial, also with zero coefficients, repeated multidegrees or multidegrees with trailing zeros; in a release build without condition, in a debug build for Lex and RevLex without condition and for the graded orders when every total degree is at most 255. In particular the result does not depend on the sorting algorithm.", "quantifier": "all polynomials over any coefficient type, all four orders, both builds", "why_tests_cant": "unsorted polynomials with repeated multidegrees come only from new_unchecked and are not in the tests; uniqueness is over all vectors", "anchors": ["src/poly/comp.rs::Computer::sort_terms", "src/poly/ord.rs::Lex", "src/poly/ord.rs::RevLex", "src/poly/ord.rs::GrLex", "src/poly/ord.rs::GRevLex"]}
{"id": "C194", "title": "Results do not depend on how the loops are arranged", "statement": "Integer::pow, computed by repeated squaring, panics in a debug build only if the power itself is not an i64 (no intermediate square overflows before the result does) and gives the power modulo 2^64 in a release build; the same holds for the number of matrices counted with usize::pow. gcd is Euclid's loop, with no bound on its iterations. Adding a term by searching its multidegree and then updating, removing or pushing at an index is one pass over the terms. get_stable_column_index_under_row, which reads an entry just before comparing it, returns the same pivot as reading the column first, and where all entries of the column can be read it also panics alike.", "quantifier": "all integers, exponents, polynomials, terms and matrices, both builds", "why_tests_cant": "the intermediate values of the loops are not observable, overflows in them occur only for huge operands", "anchors": ["src/core/num/int.rs::Integer::pow", "src/core/num/int.rs::gcd", "src/poly/elts.rs::Add<&Term> for Polynomial", "src/linalg/algorithm.rs::Mat::get_stable_column_index_under_row", "src/linalg/util.rs::get_max_index"]}
{"id": "C195", "title": "The documented identities hold when checked with the library's own operators", "statement": "For every exact coefficient type (such as Rational) and every matrix, unless an operation overflows: after lu, the checks (p * self).epsilon_equals(l * u), self.epsilon_equals(p.transpose() * l * u), l.is_lower_triangular() and u.is_upper_triangular() all return true; after row_echelon and after to_rref, (p * original).epsilon_equals(b) returns true; original times each vector of compute_kernel is epsilon_equals to zero(rows, 1), and there are columns minus rank of them; for an invertible square matrix b.epsilon_equals(identity), (p * a).epsilon_equals(identity) and (a * p).epsilon_equals(identity) return true, for a singular one over an ordered field all three return false. Where the debug build finishes, the release build gives the same answers.", "quantifier": "all exact fields, all matrices of any dimensions whose entry counts fit usize, both builds", "why_tests_cant": "the documentation states the identities for all matrices, the tests run them for a handful", "anchors": ["src/linalg/algorithm.rs::Mat::lu", "src/linalg/algorithm.rs::Mat::row_echelon", "src/linalg/algorithm.rs::RowEquivalentForm::to_rref", "src/linalg/algorithm.rs::RowEquivalentForm::compute_kernel", "src/linalg/mat.rs::Mat::epsilon_equals"]}
{"id": "C196", "title": "The documented identity of lu holds for f32 and f64", "statement": "For every matrix of floats the documented checks (p * self).epsilon_equals(l * u) and self.epsilon_equals(p.transpose() * l * u) return true after lu, and so do those of row_echelon, to_rref and compute_kernel.", "quantifier": "all matrices over f32 and f64", "why_tests_cant": "rounding errors exceed EPSILON only for particular matrices with large entries", "anchors": ["src/linalg/algorithm.rs::Mat::lu", "src/linalg/algorithm.rs::RowEquivalentForm::to_rref", "src/linalg/algorithm.rs::RowEquivalentForm::compute_kernel", "src/linalg/mat.rs::Mat::epsilon_equals"]}
{"id": "C197", "title": "With GRevLex the last variable can be divided out of a basis", "statement": "For generators each of which has all its terms in one total degree, unless an operation overflows: take the result of buchberger_algorithm with GRevLex and divide every element by the last variable with divide and take the quotient in its place where the remainder is zero; the resulting list is a Groebner basis, for GRevLex, of exactly the polynomials whose product with the last variable lies in the ideal of the generators. And the last variable occurs in no leading term of the result of buchberger_algorithm exactly when multiplying by it cannot bring a polynomial outside the ideal into it.", "quantifier": "all exact fields, all lists of homogeneous generators in any number of variables", "why_tests_cant": "the property that sets GRevLex apart from the other orders; a wrong direction of the reverse comparison in GRevLex is seen only for particular ideals", "anchors": ["src/poly/ord.rs::GRevLex", "src/poly/comp.rs::Computer::buchberger_algorithm", "src/poly/comp.rs::Computer::divide"]}
{"id": "C198", "title": "Renaming the variables renames the results", "statement": "For every coefficient type (exact or floating) with overflow checks and all polynomials in the first n variables: permuting the variables of the operands permutes the variables of the result of +, -, * and / by a scalar, term by term and with the same panics. If two monomial orders correspond under a permutation, leading_term, sort_terms, divide, try_reduce, buchberger_criterion and buchberger_algorithm give with the second order on the renamed arguments exactly the renamed outcome of the first, including panics and runs that never end. Lex and RevLex correspond under the reversal of the variables, in both directions. In two variables GrLex and GRevLex give the same outcome of all these routines, and in one variable all four orders do.", "quantifier": "all coefficient types, all polynomials, any number of variables, all permutations and all user-defined orders", "why_tests_cant": "relates two runs to each other on arbitrary inputs, including runs that panic or do not end", "anchors": ["src/poly/ord.rs::Lex", "src/poly/ord.rs::RevLex", "src/poly/ord.rs::GrLex", "src/poly/ord.rs::GRevLex", "src/poly/comp.rs::Computer::divide", "src/poly/comp.rs::Computer::buchberger_algorithm", "src/poly/elts.rs::Polynomial::mul"]}
{"id": "C199", "title": "The order of the terms of the arguments does not matter", "statement": "For every coefficient type (exact or floating) and polynomials in which no multidegree occurs twice: leading_term, leading_coef and sort_terms return exactly the same when the terms are stored in another order, in both builds, and +, - and unary - return the same terms. With overflow checks and for polynomials in canonical form: so do products with a term, and products in which the terms of the second factor are reordered; divide returns exactly the same remainder and quotients, also in the order of their terms, when the terms of the dividend and of the divisors are reordered; buchberger_criterion gives the same answer; try_reduce returns the same terms; and buchberger_algorithm returns as many polynomials with the same terms, in the same order. Here 'returns the same' includes that it returns for one order of the terms exactly when it does for the other.", "quantifier": "all coefficient types, all polynomials and lists of polynomials, all orders of their terms, all four monomial orders", "why_tests_cant": "the terms are kept in the order in which they were produced, so equal polynomials are routinely stored differently; all pairs of orders on arbitrary inputs cannot be enumerated", "anchors": ["src/poly/elts.rs::Polynomial::add", "src/poly/elts.rs::Polynomial::sub", "src/poly/comp.rs::Computer::sort_terms", "src/poly/comp.rs::Computer::leading_term", "src/poly/comp.rs::Computer::divide", "src/poly/comp.rs::Computer::buchberger_algorithm"]}
{"id": "C200", "title": "Products and values do not depend on the order of the terms", "statement": "Storing the terms of the first factor of a product of two polynomials in another order does not change the terms of the product, and storing the terms of a polynomial in another order does not change its value at a point.", "quantifier": "all coefficient types, all polynomials, all points", "why_tests_cant": "sums are formed in the order of the terms, and floating-point addition is not associative", "anchors": ["src/poly/elts.rs::Polynomial::mul", "src/poly/elts.rs::Polynomial::eval"]}
{"id": "C201", "title": "Zero divisors and divisors with a redundant leading term are never used", "statement": "For every coefficient type (exact or floating), every monomial order (also user-defined ones) and both builds: removing a zero polynomial from the divisors of divide changes nothing but the number of quotients: the quotient in its place is zero, the remainder, the other quotients and the panics are the same. If the leading term of an earlier divisor divides (Term::divides) the leading term of a later one, the quotient of the later one is zero, and without it divide returns the same remainder and the same other quotients. Conversely, where divide returns without the later divisor, it returns the same with it, or panics in dividing a coefficient by its leading coefficient; such an overflow occurs with rationals, and never with floats.", "quantifier": "all coefficient types, all monomial orders, all dividends and lists of divisors, both builds", "why_tests_cant": "which divisor is tried first is observable only in the quotients; tests use few divisors whose leading terms do not divide each other", "anchors": ["src/poly/comp.rs::Computer::divide", "src/poly/elts.rs::Term::try_div", "src/poly/elts.rs::Term::divides", "src/poly/mdeg.rs::MultiDegree::checked_sub", "src/poly/mdeg.rs::MultiDegree::is_succ"]}
{"id": "C202", "title": "The cone and the first generator decide the facets", "statement": "Let two lists of generators generate the same cone (of any dimension), with first generators that lie on the same supporting hyperplanes (for example the same first generator, or both inside the cone). If Cone::new returns for both, the dimensions, the orth_comp_basis (in the same order) and the sets of facet normals are the same. In particular generators inside the cone of the preceding ones can be appended or removed without changing these. In front of the list such a generator can change the recorded facets.", "quantifier": "all lists of generators over exact ordered fields (Rational), of any length and dimension", "why_tests_cant": "tests compare with expected facets of single examples, never two descriptions of the same cone", "anchors": ["src/linalg/cone.rs::Cone::new", "src/linalg/algorithm.rs::compute_kernel"]}
{"id": "C203", "title": "Differences over floats are zero exactly for equal operands", "statement": "Although sums are rounded: the difference of two f32 or f64 numbers, not both zero, is zero if and only if they are equal and finite (no underflow), and y - x is -(x - y) except for the sign of a zero. Hence for polynomials over f32 and f64 in canonical form p - q always returns, is_zero(p - q) holds if and only if p and q have the same terms (in any order) with finite coefficients, and q - p has the same terms as -(p - q). Over Rational p - q can panic with an overflow, even p - p, where a build without overflow checks returns zero.", "quantifier": "all f32 and f64 numbers, all canonical polynomials over them, both builds", "why_tests_cant": "the test is what algorithms rely on to stop; tests cover only coefficients like 1.0 and 2.0 where nothing is rounded", "anchors": ["src/poly/elts.rs::Polynomial::sub", "src/poly/elts.rs::Polynomial::neg", "src/poly/elts.rs::Polynomial::is_zero", "src/core/num/traits.rs::Field"]}
{"id": "C204", "title": "Bases of homogeneous generators give bases of the affine problem", "statement": "If in every generator (in k + 1 variables) all terms have the same total degree, then putting the last variable to one in the polynomials buchberger_algorithm returns for GRevLex gives nonzero polynomials in k variables that form a Groebner basis for GRevLex of the ideal of the generators with the last variable put to one, and buchberger_criterion accepts them. For GrLex this is false: for x z - y^2 and x y - z^2 the criterion refuses the result.", "quantifier": "all lists of canonical nonzero homogeneous generators, every number of variables, every exact field", "why_tests_cant": "a statement about the results of two computations in rings with different numbers of variables; the tests use no homogeneous input", "anchors": ["src/poly/comp.rs::buchberger_algorithm", "src/poly/comp.rs::buchberger_criterion", "src/poly/ord.rs::GRevLex"]}
{"id": "C205", "title": "Ranks and kernels of transposes, products and sums", "statement": "For every exact coefficient type, unless an operation overflows: rank() of a matrix and of its transpose agree; the rank of A * B is at most the ranks of A and of B and at least their sum less the number of columns of A; the rank of A + B is at most the sum of the ranks; over Rational A.transpose() * A has the rank of A; compute_kernel of the transpose and compute_range of the matrix together return as many vectors as there are rows, and the dot product of a vector of the first with one of the second is zero; two matrices of the same size have the same reduced row echelon form exactly when they have the same kernel.", "quantifier": "all matrices of every size (rows and columns below 2^32), every exact field", "why_tests_cant": "relates the results of several computations on different matrices; the tests check each computation on its own, on a few matrices", "anchors": ["src/linalg/algorithm.rs::rank", "src/linalg/algorithm.rs::Mat::row_echelon", "src/linalg/algorithm.rs::to_rref", "src/linalg/algorithm.rs::compute_kernel", "src/linalg/algorithm.rs::compute_range", "src/linalg/mat.rs::Mat::transpose", "src/linalg/mat.rs::Mul for Mat", "src/linalg/mat.rs::Add"]}
{"id": "C206", "title": "The sum of the generators first makes Cone::new describe every full-dimensional cone", "statement": "For a list of generators of Rational vectors (or of another exact ordered field) put their sum in front of them and call Cone::new. If it returns a cone of full dimension, then a vector is a nonnegative combination of the generators exactly when its dot products with the normals of all recorded facets are nonnegative, and the normals generate the dual cone: no condition on the first generator is left. Doing the same with the recorded normals of two such cones gives, as recorded normals, generators of the intersection of the two cones, provided the result is again full-dimensional. For a cone whose facets Cone::new misses the change is shown on a run.", "quantifier": "all lists of generators in every dimension, every exact ordered field, both for one cone and for pairs of cones", "why_tests_cant": "the statement quantifies over all vectors of the space and all cones; tests look at a few facets of a few cones, and none has its sum in front", "anchors": ["src/linalg/cone.rs::Cone::new", "src/linalg/mat.rs::Add"]}
{"id": "C207", "title": "Displayed matrices of floats read back", "statement": "Display for Mat<f32> and Mat<f64> writes the entries with {:?}. For zero and absolute values from 10^-4 up to but excluding 10^16 this is the text of {} with .0 after it if it has no point; for other finite numbers it is a digit from 1 to 9, possibly a point and digits the last of which is not 0, e and an exponent. Read as a decimal number, rounded to nearest, it gives the float back, with its sign if it is zero; so do inf and NaN. The text of a matrix with at least one row reads back as its rows, so that distinct matrices never display alike; the text of the matrix of the test is as expected there.", "quantifier": "all f32 and f64 and all matrices of them with the right number of entries", "why_tests_cant": "the single test displays one matrix of small integers; the statement covers every float and the choice of notation", "anchors": ["src/linalg/mat.rs::fmt::Display for Mat"]}
{"id": "C208", "title": "Distinct values have distinct debug texts", "statement": "{:?} on MultiDegree, Term, Polynomial and Mat is injective: values with the same text are the same, field by field. This includes multidegrees ending in zeros (which Display shows like the shorter ones), polynomials with repeated, zero or disordered terms, and matrices whose number of entries does not fit rows and cols. It holds for coefficients in Rational and in f32 and f64, and so the message with which Term::eval panics determines the argument and the term.", "quantifier": "all multidegrees, terms, polynomials and matrices; all Rational coefficients and all f32 and f64", "why_tests_cant": "tests print no debug text; the statement is about pairs of arbitrary values", "anchors": ["src/poly/elts.rs::Term", "src/poly/elts.rs::Polynomial", "src/poly/mdeg.rs::MultiDegree", "src/linalg/mat.rs::Mat", "src/poly/elts.rs::Term::eval"]}
{"id": "C209", "title": "Lex and GrLex agree on homogeneous polynomials", "statement": "If all terms of the dividend and all terms of each divisor have the same total degree and no coefficient is zero, divide, leading_term and sort_terms give the same result with Lex and with GrLex: in builds without overflow checks always, also where exponents wrap around, and with them unless GrLex stops because a total degree exceeds 255. For exact coefficients the same holds for buchberger_criterion and buchberger_algorithm. It holds for any two orders that agree on monomials of the same degree, and fails for other polynomials: x modulo x - y^2 is y^2 with Lex and x with GrLex.", "quantifier": "all homogeneous inputs; for divide every coefficient type, f32 and f64 included", "why_tests_cant": "tests run one order on one input; the statement compares two runs on every input", "anchors": ["src/poly/comp.rs::Computer::divide", "src/poly/comp.rs::Computer::buchberger_algorithm", "src/poly/comp.rs::Computer::buchberger_criterion", "src/poly/ord.rs::Lex", "src/poly/ord.rs::GrLex"]}
{"id": "C210", "title": "Scaled polynomials and variables", "statement": "Let every generator be multiplied by a nonzero constant of its own and every variable by a nonzero constant. Then buchberger_criterion answers the same, and buchberger_algorithm returns a list of the same length in which every polynomial is scaled in the same way, term by term in the same places; divide with the dividend scaled by c returns the remainder scaled by c and the quotient by a divisor scaled by d scaled by c/d. Sums, differences and products are scaled likewise. For every coefficient type with exact arithmetic, unless one of the runs stops at an overflow, and for every monomial order, also for comparisons that are not a monomial order.", "quantifier": "all polynomials, canonical or not, all nonzero constants, every MonomialOrder implementation", "why_tests_cant": "tests fix the constants; the claim relates two runs", "anchors": ["src/poly/comp.rs::Computer::divide", "src/poly/comp.rs::Computer::buchberger_algorithm", "src/poly/comp.rs::Computer::buchberger_criterion", "src/poly/elts.rs::Polynomial"]}
{"id": "C211", "title": "Signs over floats", "statement": "Over f32 and f64, if generators are replaced by their negatives, or variables x by -x, divide, buchberger_algorithm, buchberger_criterion and the ring operations take the same course: they return the same results with the signs changed accordingly (up to the sign of zero), or fail in the same way, or run for ever together. Rounding, overflow to infinity, NaN and exponents that wrap around change nothing about this.", "quantifier": "all polynomials over f32 and f64, both builds, every MonomialOrder implementation", "why_tests_cant": "rounding makes almost every algebraic law fail over floats; that this one survives cannot be seen from samples", "anchors": ["src/poly/comp.rs::Computer::divide", "src/poly/comp.rs::Computer::buchberger_algorithm", "src/poly/comp.rs::Computer::buchberger_criterion", "src/poly/elts.rs::Polynomial"]}
{"id": "C212", "title": "Signs of rows and columns in elimination", "statement": "If rows and columns of a matrix over f32 or f64 are multiplied by -1, lu returns the same permutation p, an l whose rows (in the permuted order) and columns have changed signs and a u whose rows and columns have changed signs; row_echelon returns forms and transformations that differ by signs of rows and columns, with the same rank and nullity; or both calls fail in the same way. Nothing is rounded differently, and the same pivots are chosen. The same holds for Rational in an overflow-checked build, entry by entry in the stored numerators and denominators, unless one of the two runs overflows.", "quantifier": "all matrices of every size, every choice of rows and columns, entries including infinities and NaN", "why_tests_cant": "the claim relates two runs through every rounding and every comparison of pivots", "anchors": ["src/linalg/algorithm.rs::Mat::lu", "src/linalg/algorithm.rs::Mat::row_echelon", "src/linalg/algorithm.rs::RowEquivalentForm::rank", "src/linalg/algorithm.rs::RowEquivalentForm::nullity"]}
{"id": "C213", "title": "Zero and One of the primitive types", "statement": "For each of the twelve primitive integer types, ZERO and ONE are values of the type; x.is_zero() holds exactly if x + y is y, without overflow, for every y, and x.is_one() exactly if x * y is y for every y. A sum or product outside the range of the type panics with overflow checks and otherwise wraps around modulo the number of values. For f32 and f64, is_zero holds exactly for 0.0 and -0.0, the numbers x with x + y == y for every y other than NaN, and is_one exactly for 1.0, the number x with x * y == y for every y other than NaN.", "quantifier": "every type of the list, all values", "why_tests_cant": "the macro makes 14 implementations of each trait; the characterisations quantify over all values of types with up to 2^128 values", "anchors": ["src/core/num/traits.rs::Zero", "src/core/num/traits.rs::One"]}
{"id": "C214", "title": "Matrix expressions have their mathematical value", "statement": "Any program that combines matrices with the constructors zero, identity, permutation and scale_mat, with +, *, scaling and transpose and with the row operations permute_rows, scale_row and replace_row returns the matrix that the same expression has in linear algebra, unless an operation on coefficients overflows. Hence two programs whose expressions are equal by the laws of matrix algebra (associativity, distributivity, (AB)^T = B^T A^T, ...) return matrices of the same size with entries of the same values, and over an exact field the very same matrix.", "quantifier": "all expressions of any size, all dimensions, every exact coefficient type", "why_tests_cant": "quantifies over programs, matrices and dimensions", "anchors": ["src/linalg/mat.rs::Mat", "src/linalg/mat.rs::Add for Mat", "src/linalg/mat.rs::Mul for Mat", "src/linalg/mat.rs::Mat::transpose", "src/linalg/mat.rs::Mat::permute_rows", "src/linalg/mat.rs::Mat::scale_row", "src/linalg/mat.rs::Mat::replace_row"]}
{"id": "C215", "title": "Sums, products and powers of ideals", "statement": "buchberger_algorithm on the concatenation of two lists returns a Groebner basis of the sum of their ideals; on the products f * g of the elements of two lists, a Groebner basis of the product of their ideals; repeating this gives Groebner bases of all powers of an ideal.", "quantifier": "all pairs of lists of nonzero canonical polynomials, all exponents, all four orders; every exact coefficient type", "why_tests_cant": "universal over ideals and exponents", "anchors": ["src/poly/comp.rs::Computer::buchberger_algorithm", "src/poly/elts.rs::Mul for Polynomial"]}
{"id": "C216", "title": "Powers of two over floats", "statement": "Over f32 and f64, let every polynomial be multiplied by a power of two of its own and every variable by a power of two (the latter in an overflow-checked build). Then divide, buchberger_algorithm, buchberger_criterion, +, - and * take the same course: the results are multiplied by powers of two accordingly, with exactly the same significands, or both calls fail in the same way, or run for ever together; unless in one of the two runs a sum, product or quotient becomes infinite or NaN, or a product or quotient of nonzero numbers is not larger than the least normal number. Sums may be subnormal. Without the condition it fails: half of 3 units of least precision is 2 units, half of 6 is 3.", "quantifier": "all polynomials over f32 and f64 with finite coefficients, all powers of two, every MonomialOrder implementation", "why_tests_cant": "the claim relates two runs through every rounding", "anchors": ["src/poly/comp.rs::Computer::divide", "src/poly/comp.rs::Computer::buchberger_algorithm", "src/poly/comp.rs::Computer::buchberger_criterion", "src/poly/elts.rs::Polynomial"]}
{"id": "C217", "title": "Units and zero divisors modulo an ideal", "statement": "Let x_k be a variable that does not occur. Reduce x_k by divide with respect to the RevLex basis of the generators and 1 - x_k f; if the remainder r does not contain x_k and r f - 1 leaves remainder zero modulo the generators, return r. This finds an inverse of f modulo the ideal of the generators exactly if there is one. There is one exactly if buchberger_algorithm on the generators and f returns a single nonzero constant. The quotient of the ideal by f (C137) is included in the ideal (C146) exactly if f is no zero divisor modulo the ideal.", "quantifier": "all lists of nonzero generators and all polynomials f (nonzero in the second and third claim) over every exact field, in any number of variables; every MonomialOrder implementation for the final test", "why_tests_cant": "a statement about all polynomials h that could be inverses, of unbounded degree", "anchors": ["src/poly/comp.rs::Computer::divide", "src/poly/comp.rs::Computer::buchberger_algorithm", "src/poly/elts.rs::Polynomial", "src/poly/ord.rs::RevLex"]}
{"id": "C218", "title": "Relations, values and subalgebras modulo an ideal", "statement": "Add to the generators of an ideal I in n variables the polynomials x_{n+j} - f_j and compute a basis by buchberger_algorithm with Lex. The elements without the first n variables generate the ideal of all polynomials p with p(f_1, ..., f_r) in I. If the generators have finitely many common zeros in an algebraic closure, the common zeros of those elements are exactly the tuples of values of the f_j at them; in general, they are the smallest set given by equations over the field that contains these tuples. The remainder of f by divide contains none of the first n variables exactly if f is a polynomial in the f_j modulo I, and then it is such a polynomial.", "quantifier": "all generators and polynomials over every exact field, in any number of variables", "why_tests_cant": "a statement about all polynomials p, of unbounded degree, and all points over an algebraic closure", "anchors": ["src/poly/comp.rs::Computer::buchberger_algorithm", "src/poly/comp.rs::Computer::divide", "src/poly/elts.rs::Polynomial", "src/poly/ord.rs::Lex"]}
{"id": "C219", "title": "Operations on ideals are operations on sets of solutions", "statement": "Consider the common zeros of polynomials with coordinates in an algebraic closure. Those of the basis buchberger_algorithm computes for the generators of two ideals together are the common zeros of both; those for the products of the generators in pairs, and those for the intersection computed by elimination (C135), are the zeros of one or the other. Those of the saturation by f (C134) are the smallest set given by equations over the field that contains the zeros of the generators where f is not zero, and exactly this set if it is finite. Computing bases of fs and 1 - x_k g for all g in gs and the other way round, and testing whether they are all single constants, decides whether two systems fs and gs of equations have the same solutions.", "quantifier": "all lists of nonzero canonical polynomials over every exact field, in any number of variables, every MonomialOrder implementation", "why_tests_cant": "statements about all points over an algebraic closure, usually infinitely many", "anchors": ["src/poly/comp.rs::Computer::buchberger_algorithm", "src/poly/elts.rs::Polynomial", "src/poly/ord.rs::RevLex"]}
{"id": "C220", "title": "Polynomials that vanish at given points", "statement": "Intersecting, by elimination (C135), the ideals generated by x_1 - a_1, ..., x_k - a_k for each of finitely many points a gives generators of exactly the polynomials that vanish at all the points. For the basis buchberger_algorithm computes from them, with any monomial order: there are exactly as many monomials divisible by no leading monomial as there are distinct points; for any values prescribed at the points exactly one polynomial with only such monomials takes them; and the remainder divide returns for a polynomial is the one that takes its values, so it is zero exactly when the polynomial vanishes at all the points. Over an infinite field the relations between polynomials computed by elimination (C143) generate exactly the polynomials that vanish on the image of the map defined by them.", "quantifier": "all finite lists of points and all canonical polynomials over every exact field, in any number of variables, every MonomialOrder implementation", "why_tests_cant": "a statement about all polynomials and all prescribed values", "anchors": ["src/poly/comp.rs::Computer::buchberger_algorithm", "src/poly/comp.rs::Computer::divide", "src/poly/elts.rs::Polynomial", "src/poly/ord.rs::RevLex"]}
{"id": "C221", "title": "The shape of a Lex basis", "statement": "Suppose that of equations in x_0, ..., x_n the last coordinates of the solutions (in an algebraic closure) take as many different values, at least one, as there are monomials divisible by no leading monomial of the basis buchberger_algorithm computes with Lex; over a perfect field such as the rationals this is so if the ideal is radical and the solutions, finitely many and at least one, have different last coordinates. Then the basis has exactly n + 1 elements: constant multiples of f(x_n), with f of degree the number of solutions, and of x_i - q_i(x_n) for i < n with q_i of smaller degree. The solutions are the points with f(x_n) = 0 and x_i = q_i(x_n).", "quantifier": "all lists of nonzero canonical polynomials over every exact field, in any number of variables", "why_tests_cant": "a statement about all systems of equations and all their solutions", "anchors": ["src/poly/comp.rs::Computer::buchberger_algorithm", "src/poly/ord.rs::Lex"]}
{"id": "C222", "title": "Residuals of the kernel over f32 and f64", "statement": "Over f32 and f64, for a form whose b is finite, the exact product of b and the vector that compute_kernel returns for a column c is, in row i, b(i, c) minus the sum of b(i, j) b(t, c) over the columns j < c that lead a row, t being the last row j leads; it is zero if the leading columns of b are exactly columns of the identity matrix and the entries that pass the test for zero to the left of the leading entries are exactly zero. If the form that row_echelon followed by to_rref returns for a matrix M has these properties, then the exact product of M and each vector of compute_kernel is bounded by the rounding errors of the two eliminations, (1 + u)^(n + 7) - 1 relative to |l||b| and (1 + u)^(n - 1) - 1 relative to |l||V||r| with V unit upper triangular, up to multiples of half the smallest positive number, weighted with the entries of the vector; here u = 2^-53 for f64 and 2^-24 for f32.", "quantifier": "all matrices over f32 and f64, both builds", "why_tests_cant": "rounding errors differ from input to input; a test can only look at a few", "anchors": ["src/linalg/algorithm.rs::compute_kernel", "src/linalg/algorithm.rs::to_rref", "src/linalg/algorithm.rs::Mat::row_echelon", "src/linalg/algorithm.rs::Mat::lu"]}
{"id": "C223", "title": "Groebner bases for two orders", "statement": "Let buchberger_algorithm compute bases of the same generators with two orders. The monomials divisible by no leading monomial are equally many for both. The elements of the first basis have the same leading monomials under both orders exactly if the same monomials are divisible by no leading monomial of the respective basis; then the two bases are the same up to order and nonzero constant factors, each passes buchberger_criterion with the other order, and divide returns equal remainders for both.", "quantifier": "all lists of nonzero canonical polynomials over every exact field, all pairs of monomial orders", "why_tests_cant": "a relation between two computations with infinitely many inputs", "anchors": ["src/poly/comp.rs::Computer::buchberger_algorithm", "src/poly/comp.rs::Computer::buchberger_criterion", "src/poly/comp.rs::Computer::divide"]}
{"id": "C224", "title": "Facets over floats support the cone up to rounding errors", "statement": "Over f32 and f64, for every facet that Cone::new returns and every generator of the cone, the computed product of the generator with the normal is not a NaN, and it is +inf, or the entries are finite and the exact product is at least minus the error bound of one product. If the elimination of the matrix of the facet's generators ends in a finite and exactly reduced form, the exact products of these generators with the normal are bounded by the rounding errors of row_echelon and to_rref. The errors matter: of the three facets of the cone over (1,0,0), (3,-1,2), (0,7,1), all found over Rational, only two are found.", "quantifier": "all lists of generators over f32 and f64, both builds", "why_tests_cant": "rounding errors for all inputs; tests of cones are over Rational", "anchors": ["src/linalg/cone.rs::Cone::new", "src/linalg/algorithm.rs::compute_kernel", "src/linalg/algorithm.rs::to_rref", "src/linalg/algorithm.rs::Mat::row_echelon"]}
{"id": "C225", "title": "lu returns whenever row_echelon does", "statement": "For a matrix of n rows (n*n below 2^64), if row_echelon returns then lu returns, and its u is the b of the form. Over f32 and f64 both return, or both panic by unwrap of an undefined comparison. Over Rational lu can return where row_echelon, which also computes the transformation, overflows.", "quantifier": "all matrices over every coefficient type; all matrices over f32 and f64 in both builds", "why_tests_cant": "no finite set of tests covers all matrices and arithmetic failures", "anchors": ["src/linalg/algorithm.rs::Mat::lu", "src/linalg/algorithm.rs::Mat::row_echelon"]}
{"id": "C226", "title": "Solving with a Lex basis, one variable at a time", "statement": "Let G be the result of buchberger_algorithm with Lex on clean nonzero generators in x_0,...,x_n over a field K, and a = (a_1,...,a_n) in an extension field L a common zero of the elements of G that are free of x_0. If the leading coefficient in x_0 of some element of G does not vanish at a, take such an element g of least degree in x_0: this degree is positive, it is the degree of g(x_0,a), g(x_0,a) divides f(x_0,a) for every f in the ideal of the generators, and (x,a) solves the generators exactly if x is a root of g(x_0,a). So over an algebraically closed L the partial solution a extends; all partial solutions do if some polynomial of the ideal has a constant leading coefficient in x_0. For x y - 1, x z - 1 the basis is x z - 1, y - z and (0,0) does not extend.", "quantifier": "all generators over any exact field, all partial solutions over all extension fields", "why_tests_cant": "tests cannot cover all systems and all points of all extension fields", "anchors": ["src/poly/comp.rs::Computer::buchberger_algorithm", "src/poly/ord.rs::Lex"]}
{"id": "C227", "title": "Residual of divide over f32 and f64", "statement": "Let divide (debug build, any order) return (r, q_1..q_m) with finite coefficients for a canonical dividend f and canonical divisors g_1..g_m over f32 or f64. Then all coefficients met in its N loop steps are finite, and if those of the dividends met are at most Mf, of the quotients Mq and of the divisors G in absolute value, then each coefficient of f - (q_1 g_1 + ... + q_m g_m + r), computed exactly, is at most (N - R) (v((3+v) Mf + Mq G) + (1+v) 2^-(unitExp+1)), where v = 1/(2^prec - 1) and R is the number of terms of r. It need not be zero: x divided by 3 x + 1.", "quantifier": "all canonical polynomials over f32 and f64 in any number of variables, all runs that return finite coefficients", "why_tests_cant": "no finite set of tests covers all roundings", "anchors": ["src/poly/comp.rs::Computer::divide"]}
{"id": "C228", "title": "Accuracy of eval over f32 and f64", "statement": "Evaluating a polynomial with k terms over f32 or f64 at a point with enough coordinates returns. If the value d is finite, so are all coefficients and all powers powi(x_i, d_i) met, and d differs from the exact sum of the exact products of coefficients and computed powers by at most ((1+u)^(k+L) - 1) S + L (1+u)^(k+L) 2^-(unitExp+1) B, where u = 2^-prec, L bounds the number of variables of a term, S is the sum of the absolute values of the products and B the sum over the terms of the product of max(1, |power|). If powi is within a relative error e of the exact powers, d is within ((1+u)^(k+L) (1+e)^L - 1) S' + L (1+u)^(k+L) (1+e)^L 2^-(unitExp+1) B' of the exact value of the polynomial. The value need not be exact: the float 1/3 times x at 3 gives 1.", "quantifier": "all polynomials and points over f32 and f64, all implementations of powi", "why_tests_cant": "no finite set of tests covers all roundings", "anchors": ["src/poly/elts.rs::Term::eval", "src/poly/elts.rs::Polynomial::eval"]}
{"id": "C229", "title": "Remainders and quotients are sorted for every coefficient type", "statement": "Whatever the coefficient type, also where arithmetic is inexact as over f32 and f64 (checked build): if divide returns for a dividend without zero coefficients and repeated monomials, then the terms of the remainder and of each quotient are in strictly descending order, and no term of the remainder and no product of a term of a quotient with the leading monomial of its divisor is above all terms of the dividend. Case: x^2 + y divided by 3 x + 1 over floats.", "quantifier": "all coefficient types, all canonical dividends and all divisors in any number of variables", "why_tests_cant": "over floats leading terms need not cancel and quotients may underflow; no finite set of tests covers this", "anchors": ["src/poly/comp.rs::Computer::divide"]}
{"id": "C230", "title": "Division and Buchberger's algorithm over floats end unless something overflows or underflows", "statement": "Over f32 and f64, with rounding: for canonical polynomials with finite coefficients (and nonzero generators), divide, buchberger_criterion and buchberger_algorithm end unless some operation gives an infinity or NaN, or some product, quotient or inverse of nonzero numbers is below the smallest normal number. In detail: the run in which such an operation stops with a panic always ends, and equals the real run (checked build) unless it stops there; a real run without end is one where it stops there (in the unchecked build also where an exponent exceeds 255). A division that is not stopped leaves a remainder no term of which is divisible by the leading monomial of a divisor. The endless runs of C95 and C156 are stopped. Cases: x^2 + y divided by 3 x + 1, and the inputs of C95 and C156.", "quantifier": "both formats, all orders, all canonical polynomials with finite coefficients in any number of variables", "why_tests_cant": "leading terms do not cancel exactly over floats, so ending depends on the rounding errors of every step; no finite set of tests covers this", "anchors": ["src/poly/comp.rs::Computer::divide", "src/poly/comp.rs::Computer::buchberger_algorithm", "src/poly/comp.rs::Computer::buchberger_criterion"]}
{"id": "C231", "title": "Elimination over floats returns finite entries when the entries are moderate", "statement": "Over f32 and f64, with rounding: if all entries of an n x m matrix are finite and at most B >= 1 in absolute value and 2^prec (9/4)^min(n,m) B < 2^maxExp (maxExp = 128 or 1024), then lu and row_echelon return, in both builds, and all entries of l, u, b and p are finite: those of l are at most (9/4)^min(n,m) B, those of u, b and p at most 2^prec times that. Every entry of p M differs from that of the exact product l u by at most ((1 + 2^-prec)^(n+7) - 1) 2 (9/4)^min(n,m) B + (1 + 2^-prec)^n (n + 2 (9/4)^min(n,m) B) 2^-(unitExp + 1). So both routines return for f64 matrices with at most 100 rows or columns and entries up to 1e200, and for f32 matrices with at most 20 rows or columns and entries up to 1e20. Case: a 2 x 2 matrix with rounding errors.", "quantifier": "both formats, both builds, all sizes, all matrices of finite entries within the bound", "why_tests_cant": "the growth of the entries depends on every rounding of every step; tests cover a few matrices", "anchors": ["src/linalg/algorithm.rs::Mat::lu", "src/linalg/algorithm.rs::Mat::row_echelon"]}
{"id": "C232", "title": "Values of polynomials over floats with powers by repeated squaring", "statement": "Take for powi of f32 and f64 the function of LLVM's runtime library (__powisf2, __powidf2: repeated squaring). A finite power x^n with n <= 255 is within the relative error (1 + u)^(2n) - 1 (u = 2^-prec) of the exact one if x is 0, |x| >= 1, or |x|^n is at least twice the smallest normal number; powers of integers are exact up to 2^prec. So eval of a polynomial with k terms in L variables with exponents up to D returns, and a finite value differs from the exact one by at most ((1+u)^(k + (2D+1)L) - 1) S + L (1+u)^(k + (2D+1)L) 2^-(unitExp+1) B, with S the sum of the absolute values of the terms and B the sum of the products of max(1, |x_i^d_i|), unless a power underflows. With nonzero integer coefficients, an integer point, and the sum of |c| prod max(1, |x_i|^d_i) at most 2^prec the value is exact. Cases: 3x^5 - 2y^3 at (7, 10), powers of 1/3, of 0 and of a subnormal number.", "quantifier": "both formats, both builds, all polynomials and points", "why_tests_cant": "every rounding of every squaring enters; tests compare a few values", "anchors": ["src/poly/elts.rs::Polynomial::eval", "src/poly/elts.rs::Term::eval", "src/core/num/traits.rs::Field::powi32"]}
{"id": "C233", "title": "Elimination over floats on matrices scaled by powers of two", "statement": "Multiplying a matrix over f32 or f64 by a power of two, or its columns by powers of two of their own, does not change the course of lu and row_echelon: the same rows are chosen as pivots, lu returns the same permutation, the factors and the form differ by powers of two for their rows and columns without any difference in rounding, and rank and nullity of the matrix multiplied by 2^k are the same.", "quantifier": "both formats, both builds, all matrices of finite entries and all exponents", "why_tests_cant": "every rounding and every comparison of two whole runs enters; tests compare a few matrices", "anchors": ["src/linalg/algorithm.rs::Mat::lu", "src/linalg/algorithm.rs::Mat::row_echelon", "src/linalg/algorithm.rs::Mat::get_stable", "src/linalg/algorithm.rs::Form::rank", "src/linalg/algorithm.rs::Form::nullity", "src/linalg/algorithm.rs::Form::compute_kernel", "src/core/num/traits.rs::EpsilonEquality"]}
{"id": "C234", "title": "Texts with the flag #", "statement": "{:#?} of integers, rationals, multidegrees, terms, polynomials and matrices determines the value: distinct values of one of these types, over Rational or over floats, have distinct texts. {:#} of a matrix whose entries suffice does not panic and writes a newline and then its rows as {:#?} writes lists, separated by newlines; distinct well-formed matrices with at least one row have distinct {:#} texts. The lines of {:#?} of a number, a multidegree and a matrix of floats are as documented for the derived trait, with four spaces for each level.", "quantifier": "all values over Rational, f32 and f64 (all NaN taken as one)", "why_tests_cant": "the texts are unbounded, and that indentation leaves no ambiguity is a statement about pairs of values", "anchors": ["src/core/num/int.rs::Integer", "src/core/num/rat.rs::Rational", "src/poly/mdeg.rs::MultiDegree", "src/poly/elts.rs::Term", "src/poly/elts.rs::Polynomial", "src/linalg/mat.rs::Mat", "src/linalg/mat.rs::Display for Mat"]}
{"id": "C235", "title": "Projections and images of sets of solutions", "statement": "Consider solutions with coordinates in an algebraic closure. With Lex the solutions of the elements of buchberger_algorithm's result that are free of the first k variables are the smallest set given by equations over the field that contains the projections of all solutions to the other variables; if these projections are finitely many, they are exactly this set, even if there are infinitely many solutions. There is no such element exactly if no equation in the other variables holds for all solutions. With RevLex the same holds for the last variables. The solutions of the relations between polynomials f_1, ..., f_r (C143) are the smallest such set that contains all points (f_1(x), ..., f_r(x)).", "quantifier": "all lists of nonzero polynomials, all k, all lawful fields", "why_tests_cant": "a statement about infinitely many points and all polynomials vanishing at them (Nullstellensatz)", "anchors": ["src/poly/comp.rs::Computer::buchberger_algorithm", "src/poly/ord.rs::Lex", "src/poly/ord.rs::RevLex"]}
{"id": "C236", "title": "Greatest common divisors in several variables", "statement": "If the ideal of the generators is generated by one nonzero polynomial, buchberger_algorithm returns a single polynomial, equal to it up to a constant factor. So for nonzero polynomials f and g, buchberger_algorithm on the intersection of their ideals (C135) returns a single polynomial, a least common multiple of f and g, and divide of f * g by it gives a greatest common divisor as its only quotient, which is a constant exactly if f and g have no common factor.", "quantifier": "all pairs of nonzero polynomials in any number of variables, all monomial orders, all lawful fields", "why_tests_cant": "divisibility by all polynomials; rests on unique factorisation, and the tests have no such example", "anchors": ["src/poly/comp.rs::Computer::buchberger_algorithm", "src/poly/comp.rs::Computer::divide", "src/poly/elts.rs::Polynomial"]}
{"id": "C237", "title": "Inverting polynomial maps", "statement": "For polynomials f_1, ..., f_n in n variables, dividing the variables x_i by the Lex basis of the x_(n+j) - f_j leaves only remainders in the new variables exactly if there are polynomials g_1, ..., g_n with g_i(f_1, ..., f_n) = x_i and f_j(g_1, ..., g_n) = x_j, and then the remainders are the g_i.", "quantifier": "all lists of n polynomials in n variables, all lawful fields", "why_tests_cant": "existence of an inverse is a statement about all polynomials; that an inverse on one side is one on the other needs the noetherian property", "anchors": ["src/poly/comp.rs::Computer::buchberger_algorithm", "src/poly/comp.rs::Computer::divide", "src/poly/ord.rs::Lex", "src/poly/elts.rs::Polynomial::var"]}
{"id": "C238", "title": "Quotients and saturations by ideals", "statement": "Intersecting (C135) the quotients (C137) of an ideal I by the generators of an ideal J gives generators of the quotient I : J, the polynomials p with q p in I for all q in J. Intersecting the saturations (C134) gives the saturation, the polynomials p with q p in I for all q in some power of J. The solutions of the latter, with coordinates in an algebraic closure, are the smallest set given by equations over the field that contains the solutions of I that are not solutions of J.", "quantifier": "all pairs of lists of nonzero polynomials, all lawful fields", "why_tests_cant": "statements about all polynomials of ideals and all points (Nullstellensatz)", "anchors": ["src/poly/comp.rs::Computer::buchberger_algorithm", "src/poly/comp.rs::Computer::divide", "src/poly/ord.rs::RevLex", "src/poly/elts.rs::Polynomial::var"]}
{"id": "C239", "title": "Subspaces given by vectors", "statement": "For every exact coefficient type, unless an operation overflows: compute_kernel of from_row_vectors of a non-empty list of vectors returns linearly independent equations of the subspace they span, as many as the dimension of the space less that of the subspace; compute_kernel of the equations of two subspaces together, not both the whole space, is a basis of their intersection; compute_range of from_col_vectors of both lists is a basis of their sum taken from the lists; the two bases have together as many vectors as the ranks add up to; and one subspace contains another exactly when adding the vectors of the latter does not change rank().", "quantifier": "all non-empty lists of vectors of the same size whose products of sizes fit in usize, all lawful fields", "why_tests_cant": "statements about all vectors of subspaces, for chains of calls", "anchors": ["src/linalg/mat.rs::Mat::from_row_vectors", "src/linalg/mat.rs::Mat::from_col_vectors", "src/linalg/algorithm.rs::compute_kernel", "src/linalg/algorithm.rs::compute_range", "src/linalg/algorithm.rs::rank"]}
{"id": "C240", "title": "Least squares over the rationals", "statement": "For a matrix A and a vector y of Rational entries, unless an operation overflows: with B and P the fields b and p of the reduced row echelon form of A.transpose() * A and z = P * (A.transpose() * y), the vectors x for which the sum of the squares of the entries of A x - y is least are exactly the solutions of B x = z; rank() of the form is the rank of A and z vanishes in the rows from there on, so that there are solutions; and if it is the number of columns, z is the only one.", "quantifier": "all matrices over Rational with m columns and m*m < 2^64, all right-hand sides", "why_tests_cant": "a minimum over all vectors, for a chain of calls", "anchors": ["src/linalg/mat.rs::Mat::transpose", "src/linalg/mat.rs::Mul for Mat", "src/linalg/algorithm.rs::Mat::row_echelon", "src/linalg/algorithm.rs::to_rref", "src/linalg/algorithm.rs::rank"]}
{"id": "C241", "title": "Inverses of matrices", "statement": "For every exact coefficient type, unless an operation overflows: for an invertible matrix the field p of row_echelon().to_rref() multiplied with the matrix on either side gives the identity, and p of p is the matrix; p of the transpose is the transpose of p, and p of a product is the product of the two p in the opposite order. For any matrix whose rank is the number of columns, the product of p with the matrix has ones on the diagonal and zeros elsewhere, so that the first rows of p are a left inverse; for a matrix whose rank is the number of rows, p of the transpose gives a right inverse.", "quantifier": "all matrices whose squared sizes fit in usize, all lawful fields", "why_tests_cant": "all sizes and entries, for chains of calls", "anchors": ["src/linalg/algorithm.rs::Mat::row_echelon", "src/linalg/algorithm.rs::to_rref", "src/linalg/mat.rs::Mat::transpose", "src/linalg/mat.rs::Mul for Mat"]}
{"id": "C242", "title": "Linear forms as polynomials and as vectors", "statement": "Let the generators be linear forms without constant term and let a list of vectors hold their coefficients. Unless an operation overflows: a linear form leaves remainder zero on divide by the buchberger_algorithm of the generators exactly when adding its vector to from_row_vectors of the list does not change rank(); and the common zeros of the basis are exactly the linear combinations of the vectors that compute_kernel returns for the matrix.", "quantifier": "all lists of nonzero linear forms in any number of variables, all orders that implement a monomial order, all lawful fields", "why_tests_cant": "relates two algorithms of different modules on all inputs and quantifies over all points", "anchors": ["src/poly/comp.rs::Computer::buchberger_algorithm", "src/poly/comp.rs::Computer::divide", "src/linalg/mat.rs::Mat::from_row_vectors", "src/linalg/algorithm.rs::rank", "src/linalg/algorithm.rs::compute_kernel"]}
