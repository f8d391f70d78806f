# Formal model of Atom-Toolkit: design

The model is in Lean 4 under `lean/Verif/`:

* `Verif/Model/*.lean`  – the code, function by function. Every definition cites file and lines in /repo (paths relative to
  `atomtoolkit/`); exceptions are values (`Except PyErr`), so that every raising branch is part of the model.
* `Verif/Spec/*.lean`   – small independent specifications (what "n-th lowest", "half-integer", "satisfies the
  set frequencies", "Racah's formula" ... mean), written without reference to the model's helpers.
* `Verif/Proofs/*.lean` – helper lemmas.
* `Verif/Props/*.lean`  – the property theorems (names `Cnn_...`), each with an `example` that its hypotheses
  are met by a concrete non-trivial case. A property the code violates is kept in full as `Cnn_full`, refuted by a
  `Cnn_..._fails` theorem (a concrete witness) and accompanied by `Cnn_..._partial` theorems for what does hold.

The central piece is a state machine (`Model/World.lean`): an `Atom` with its graph of levels and transitions, lazily populated
sublevels, aliases, pinned levels and warnings; `Reachable w` means that `w` comes from an empty atom by any finite sequence of
API calls, including calls that raise half way. Statements about "every atom" quantify over `Reachable`.

## Trusted base

* Lean's kernel; axioms at most `propext`, `Classical.choice`, `Quot.sound`. `AXIOMS.md` lists them for every theorem named in
  `MANIFEST.json` (output of `#print axioms`). No `sorry`, no own axioms, no `native_decide`/`bv_decide`; `decide +kernel` is
  evaluated by the kernel.
* The reading of the Python code. The code is not run; every definition cites the lines it models.
* Numbers. Quantum numbers are half-integers, exact in binary floating point; they are modelled as rationals.
  Energies, rates, coefficients and coordinates are Python floats; they are modelled as exact rationals (or reals
  where square roots, exp or pi occur). Consequences: tests such as `!= 0.0` are exact in the model; NaN and inf are not
  modelled unless said so (a missing NIST cell is `none`). `enforce_consistency` is in addition modelled with an arbitrary
  rounding function applied to every sum and difference (`Model/Rounded.lean`), with 53-bit round-to-even as an instance.
* Units. A pint quantity is modelled as its value in the base unit (Hz, gauss); assignments in other units, and what they raise, are
  in Model/Units.lean, wavelengths in Model/Wavelength.lean.  The exception is where the code reads
  `.magnitude` without converting (branching ratios): there a quantity is (magnitude, unit factor). The text of quantities in the
  hyperfine CSV is a parameter `QExact` (what is printed is read back).
* Strings are lists of characters. `str.upper/isupper/islower` are modelled on ASCII letters.
* `re.findall/match/search/sub` are modelled by a backtracking matcher on the regular-expression syntax tree (`Model/Regex.lean`),
  results in the order Python tries them. A class is a predicate on characters; repetition is only of classes.
* networkx (2.8.x) graphs are modelled as insertion-ordered adjacency dictionaries; where the library iterates
  over a Python set (order depends on string hashing) the model takes an arbitrary order as a parameter.
* numpy `arange/linspace/repeat/tile`, Python `sorted`, `dict`, `csv`, `str.format/replace/split/strip`,
  `functools.lru_cache`, pandas `apply/loc/idxmax/explode` on the columns used are modelled from their documentation.
* Wigner symbols (sympy/py3nj) are a parameter `Wig`; `Wig.Good` says that on half-integers they have the values of Racah's formula
  (`Spec/Racah.lean`); for 9j symbols `Faithful W9 W.nine` says the same with the sum of products of three 6j symbols (`Spec/Nine.lean`).
  In `Model/Coupling.lean` the complex power (-1)^x of `JK_to_LS` and `round` are parameters. Bessel functions and the Voigt profile are parameters.

## Not modelled

matplotlib calls and colours as drawn, the NIST download and pandas' CSV reader, the pickle format, tqdm progress bars,
Voigt profiles' values, pint's parser, logging of IO.

## Plan per property

`Model` names the modules under `lean/Verif/Model`; theorems `Cnn_…` are in the module under `lean/Verif/Props` named after it in brackets.

| id | title | modelled in [stated in] | how it is proved | status and what is missing |
|---|---|---|---|---|
| C01 | Half-integer text round trip | Util [Util] | decimal print/parse round trip by induction on digits | proved: all half-integers; the non-half-integer collision is shown separately |
| C02 | Orbital letters are a bijection | Util [Util] | case split on the finite letter table lifted to all strings and integers | partial: round trips, let_to_l domain and upper/lower bounds proved; property is false for l_to_let(-21..-1), which wraps to the end of the table (C02_negative_wraps_fails) |
| C03 | Coupling classification | Parse [Util] | case analysis on the characters of the text | proved: classification of every term text |
| C04 | LS terms parse to their quantum numbers | Regex, Parse, Term [Parse] | lemmas on greedy digit runs and lazy dots over arbitrary strings | proved: all multiplicities, letters, configurations; the no-letter error branch too |
| C05 | JK terms parse to their quantum numbers | Regex, Parse, Term [Parse] | as C04, with the scan of the configuration | proved: one-core and core-plus-ancestor shapes; surrounding text without capital letters; error branch |
| C06 | LK terms parse to their quantum numbers | Regex, Parse, Term [Parse] | as C04 | proved: one ancestor; surrounding text without capital letters; error branch |
| C07 | JJ terms parse to their quantum numbers | Regex, Parse, Term [Parse] | as C04; findall over two groups | proved: groups in configuration or in term; error branch; lower-case electrons get spin 0 (finding) |
| C08 | Parity is the star | Term [Term] | induction over chains of copies | proved: all terms, all chains of copies |
| C09 | Level names identify levels | Term [Term] | injectivity of names, splitting at the last characters | proved: names of NIST-shaped terms are injective; ambiguity without the shape shown |
| C10 | Sub-term copies keep the quantum numbers | Term [Term] | induction over chains of copies | proved: all chains of copies |
| C11 | Term equality tells terms apart | Term [Term] | the components compared, one by one; counterexample | partial: equivalence relation proved; ignoring J, F, mF refutes "tells terms apart" (C11_eq_ignores_J_fails) |
| C12 | MultiTerm leads with its largest component | Term [Term] | specification of a stable sort; counterexample | partial: sorting, stability, attribute access, copies proved; symmetry of == fails for different lengths (C12_eq_asymmetric_fails) |
| C13 | Hyperfine multiplet is exactly \|J-I\|..J+I | Level, Util [Level] | membership in np.arange, counting by induction | proved: all half-integers I, J >= 0 |
| C14 | Zeeman manifold is exactly -F..F | Level, Util [Level] | as C13, summed over F | proved: all half-integers |
| C15 | Every level can be looked up by its own name, all access paths agree | World [Subs] | refinement of the lookup to a finite map; rsplit lemmas on names | partial: Proved for levels with half-integer J whose name contains no '=': fine, hyperfine, Zeeman and mJ= spellings, populated before or not. A configuration containing F= cannot be looked up (C15_fails). |
| C16 | Aliases | World [Container] | invariant of the alias table over operation sequences; counterexample | partial: assigned alias returns the level and survives every operation that does not assign that alias; false after deletion or when the alias contains a level marker (C16_fails) |
| C17 | Integer indexing is energy order | World, Graph [Container] | sortedness and permutation of the level list | proved: every reachable atom and integer |
| C18 | Hyperfine shift is always defined | Level [Level] | case analysis on the guards | proved: definedness holds for all rationals |
| C19 | Hyperfine structure preserves the centroid | Level [Level] | closed forms of partial sums by induction | proved: all I, J, A, B, C, for the code's own (mis-normalised) octupole term too |
| C20 | Stretched-state normalisation of A, B, C | Level [Level] | field arithmetic; counterexample | partial: A and B terms proved; the C coefficient is 2I-1 instead of 1 (C20_octupole_fails, C20_octupole_always_off) |
| C21 | Linear Zeeman structure | Level [Level] | field arithmetic | proved: all F, gF, B and quadratic coefficient |
| C22 | g_F of hyperfine levels | Level [Level] | field arithmetic | proved: all half-integers |
| C23 | Lande factor of an LS level | Level [Level] | field arithmetic; counterexample | partial: percentage times the Lande formula for one LS term; with the default percentage 100 the property is false (C23_lande_fails) |
| C24 | Setting a sublevel's energy moves its manifold rigidly | World [Energies] | algebra over the shift functions, for all reachable states | proved: every reachable atom, fine, hyperfine and Zeeman levels |
| C25 | Sublevel energies follow the current constants | World [Subs] | invariant (history of g_J assignments); counterexample | partial: Proved for every history in which g_J is not changed after the Zeeman sublevels of the level were accessed; the g factor is frozen at that moment (C25_fails). |
| C26 | Transition frequency is the level difference | World [Energies] | absolute value | proved: every transition and state |
| C27 | Upper and lower are the right way round | World [Energies] | invariant on ends; counterexample | partial: upper and lower hold at construction and are exactly the two ends for ever; false after an energy change (C27_fails) |
| C28 | Transition lookup ignores key order | World, TransKeys [Transitions] | symmetric adjacency invariant; counterexample | partial: fine-structure keys with different energies; with equal energies the order matters (C28_fails) |
| C29 | Every transition of the atom can be looked up | World, TransKeys [Transitions] | exact condition of success; counterexample | partial: exact condition for fine-structure keys; false when the upper level was added before the lower (C29_fails) |
| C30 | Subtransition lookup returns the named pair | SubTrans [SubTrans] | lookup over the list of subtransitions; counterexample | partial: a subtransition asked for by its own names is returned unless one with the names exchanged exists; on the D2 line with I=3/2 (F=1,F'=2) gives (F=2,F'=1) (C30_fails) |
| C31 | Fine-structure selection rules | World [Energies] | selection rules by cases; counterexample | partial: fine-structure selection rules for every transition of every history; 0 to 0 is let through (C31_fails) |
| C32 | Hyperfine subtransitions are exactly the allowed pairs | SubTrans, Wigner [SubTrans] | 6j conditions by Racah's formula; counterexample | partial: soundness for every reachable atom; completeness for separated manifolds without M1 and E2 both allowed; with both, \|F-F'\|=2 pairs are left out (C32_fails) |
| C33 | Zeeman subtransitions obey the m selection rule | SubTrans, Wigner [SubTrans] | 3j conditions | proved: every reachable atom, hyperfine pair, and Wigner backend that meets Wig.Good |
| C34 | Hyperfine line strengths | SubTrans, Wigner [SubTrans] | symmetries of the 6j symbol; orthogonality sum for k=1 by explicit sums; counterexample | partial: values, symmetry, vanishing, and the sum rule for J, J' that a dipole can connect; J=0 to J'=0 is treated as dipole with zero strengths (C34_fails) |
| C35 | Zeeman line strengths | SubTrans, Wigner [SubTrans] | symmetries of the 3j symbol; counterexample | partial: dipole and quadrupole values and signs; an E2 line F=0 to F'=2 has strength zero (C35_fails) |
| C36 | Jointly satisfiable frequencies are all enforced | World, Graph [Enforce] | invariant over the DFS edge list against a potential; counterexample | partial: groups solvable in the built orientation, and every loop-free unpinned group; false for loops in general (C36_fails) |
| C37 | Setting a frequency takes effect | World, Graph [Enforce, Pinned, Retune] | from C36; for enforced trees induction over the depth first search, the far end of the transition being found through it; counterexample | partial: unpinned loop-free groups, leaf transitions, and enforced trees: the frequency takes effect exactly if the transition goes up as seen from the lowest level (C37_up_partial, C37_down); false in general: a re-set frequency can be overridden (C37_fails) |
| C38 | Setting a frequency preserves the other set frequencies | World, Graph [Enforce] | leaves of the group keep the others; counterexample | partial: transitions whose upper end is a leaf; in an enforced tree exactly the other set transitions at the moved level break (C37_up_partial); false in general (C38_fails) |
| C39 | Enforcement moves only the affected group | World, Graph [Enforce] | DFS stays in a component | proved: every reachable atom, transition and frequency, any set iteration order |
| C40 | Contradictory loops are reported | World, Graph [Enforce] | a warning implies a loop; counterexample | partial: no false alarms proved; contradictory loops are never reported on fresh atoms (C40_silent_on_fresh, C40_fails) |
| C41 | Setting a subtransition's frequency shifts the parent | SubTrans, World [SubTrans] | from C37 through the rigid shift; counterexample | partial: upright hyperfine and Zeeman transitions whose parent's new frequency takes effect; false when the parent is overridden (C41_fails) |
| C42 | linked_levels is the neighbourhood | Derived [Transitions] | symmetric adjacency invariant; counterexample | partial: by name, every reachable atom; by alias it raises KeyError (C42_fails) |
| C43 | Branching ratios form a distribution | Derived [Derived] | sums over the neighbours; counterexamples | partial: Lists, missing rates, units and the distribution when all rates are known and not all zero; ZeroDivisionError otherwise. C43_missing_fails / C43_lists_fails give the counterexamples. |
| C44 | State lifetime | Derived [Derived] | sums over the neighbours | proved: Lifetime equals 1/total rate for every state with known rates, infinite without decays, and missing rates are reported. |
| C45 | Level container bookkeeping | World, Graph [Container] | refinement to a finite map over operation sequences | proved: all operation sequences |
| C46 | add_transition brings its levels along | World [Transitions] | frame of the operation; counterexample | partial: levels already in the atom stay; add_transition never adds a level (C46_fails) |
| C47 | A failed transition construction leaves the atom usable | World [Transitions] | crash points of the constructor; counterexample | partial: constructor arguments whose first level is outside the atom; otherwise every later enforcement raises (C47_poisoned, C47_fails) |
| C48 | populate_transitions adds the allowed transitions | Derived [Derived] | the loop's body never creates; counterexample | partial: Nothing is ever created (C48_never), and it returns normally only if all pairs looked at are connected already (any flags); the claim that allowed pairs are created is false (C48_fails). |
| C49 | populate_internal_transitions adds exactly the self transitions | Derived [Transitions] | induction over the levels; counterexample | partial: every atom whose levels have a J; a level with open J stops it half way (C49_fails) |
| C50 | Loading a level table | Table [Table] | induction over the rows; counterexample | partial: Proved for tables with the default index and distinct readable names; a gap in the index loses rows (C50_fails); unreadable rows abort (C50_abort). |
| C51 | Loading a transition table | Table [Table] | induction over the rows; counterexample | partial: Proved for plain names that are not aliases, numeric J entries and acceptable linewidths; a J written as a fraction aborts the load (C51_fails). |
| C52 | Tensor strengths are squared matrix elements | Wigner [Strengths] | algebra over the reals | proved: For every backend that returns Racah's values (Wig.Good) and half-integer quantum numbers; the square needs F0, F1 >= 0 only. |
| C53 | Tensor strengths are symmetric in the two states | Wigner [Strengths] | symmetry of the 6j and 3j symbols; counterexample | partial: False because of the factor 2*F1+2 (C53_fails, C53_differs); proved that both strengths are the same symmetric angular factor times (2F0+1)(2F1+2) and (2F1+1)(2F0+2), so they agree for F0 = F1. |
| C54 | E1/M1 geometry | Wigner [Strengths] | algebra over the reals; counterexample | partial: Proved for tuples; an array, which the signature asks for, is rejected by lru_cache (C54_fails). |
| C55 | E2 geometry | Wigner [Strengths] | algebra over the reals; counterexample | partial: The average is proved; the geometric strength keeps a term outside the product (C55_rest), so it vanishes only if eps_y k_x + eps_x k_y = 0 (C55_fails). |
| C56 | Coupling conversion enumerates every LS term once | Util [Strengths] | membership in the product of two ranges | proved: Half-integer non-negative lc, lo, sc, so. |
| C57 | Memoisation is invisible | Wigner [Strengths] | invariant of the memo table over call histories; counterexample | partial: Proved for every sequence of calls with numbers and for any function of hashable arguments; functions with a vector argument raise TypeError on arrays (C57_vectors, C57_fails). |
| C58 | Wigner symbols vanish outside the selection rules | Wigner [Strengths] | Racah's formula: triangle factors and column exchange; counterexample | partial: Vanishing proved for half-integers; exchange of columns and absence of exceptions for all arguments. Other arguments are truncated by int(2x) (C58_fails). |
| C59 | Hyperfine CSV round trip | IO [IO] | csv writer/reader state machine, round trip by induction; counterexample | partial: atoms in which no alias equals a level's name and no level name contains F=, mF=, mJ=; any other characters allowed; text of quantities assumed exact; fails with such an alias (C59_fails) |
| C60 | apply_hf_csv touches only the named levels | IO [IO] | induction over the rows; counterexamples | partial: names without sublevel markers, errors before the first assignment of a row; an unreadable B or C value leaves the row half applied (C60_halfway_fails), an unknown name with F= raises (C60_marker_fails); C60_any_partial is for every CSV text of the rows |
| C61 | Saved file names | IO [Conf] | splitting at dots; counterexample | partial: names with at most one dot; repeated saving for names without dots; fails for x.atom.bak and a.b.atom (C61_fails) |
| C62 | Second configurations are reconstituted | IO, Regex [Conf] | sub/findall/format over arbitrary groups; counterexample | partial: as many groups in c1 as in c0 and no braces; fewer groups raise IndexError (C62_fails) |
| C63 | Lorentzian profile | Lineshape [Lineshape] | real analysis by algebra | proved: all reals; zero width and other signs of the amplitude covered |
| C64 | Sideband count | Lineshape [Lineshape] | the loop's result is the least solution; termination by factorial growth; counterexample | partial: the least number whenever the constructor returns, and it returns for \|depth\| <= 124; from 125 on it raises OverflowError (C64_raises, C64_fails) |
| C65 | Modulated lineshape symmetry | Lineshape [Lineshape] | reindexing the sum | proved: all reals, all Bessel values as a parameter |
| C66 | Line plotting window | Lineshape [Lineshape] | linspace; counterexample | partial: two or more points; with one point only the left end is returned (C66_fails) |
| C67 | Bounding boxes enclose their points | Grotrian [Render] | folds of min and max | proved: all finite lists of rational points |
| C68 | Zeeman sublevels are drawn without overlap | Grotrian [Grotrian] | arithmetic of the row positions; counterexample | partial: I+J at least 1: rows disjoint and ordered, requested width for integral I+J; I+J<1 raises ZeroDivisionError (C68_small_raises, C68_fails), half-integral I+J is drawn too wide |
| C69 | Colour shades stay in range | Grotrian [Render] | bounds of the affine map; counterexample | partial: lower bound always, upper bound for shades without gaps; fails with a gap (C69_fails) |
| C70 | Light field polarisation is a unit vector | Environment [Render] | the checked inequality; counterexample | partial: only the upper bound is checked; the zero vector is accepted (C70_fails) |
| C71 | Re-adding a transition is harmless | World [Transitions] | frame of the operation; counterexample | partial: before the subtransitions are computed, with and without set frequencies; afterwards it raises AttributeError (C71_fails) |
| C72 | Item access by energy rank for transitions | TransKeys [Transitions] | the key test always raises | partial: false: integer keys always raise TypeError (C72_never, C72_fails) |
| C73 | Gaussian profile | Lineshape [Lineshape] | real analysis by algebra | proved: all reals |
| C74 | The plotting window covers the line | Lineshape [Lineshape] | inequalities; counterexample | partial: Lorentzian, modulated and Gaussian shapes; the thermal Gaussian's window omits the line frequency (C74_fails) |
| C75 | Thermal lines can be drawn | Lineshape [Lineshape] | division guards; counterexample | partial: positive linewidths; a zero linewidth, the default, raises ZeroDivisionError (C75_raises, C75_fails) |
| C76 | Light fields and beams carry their intensity | Environment [Render] | vector algebra over the reals; counterexample | partial: light fields; no GaussianBeam can be constructed (C76_beam_raises, C76_fails) |
| C77 | Hyperfine levels are drawn with documented widths | Grotrian [Grotrian] | arithmetic of the row widths; counterexample | partial: widths with the factor the code uses, 4*floor(I+J)+3 instead of 2(I+J)+1 (C77_fails) |
| C78 | Boxes of parent levels enclose the lines of their sublevels | Grotrian [Grotrian, Strategies] | box membership through the fold | proved: keyword arguments with the default squeeze and 0 < fill_factor < 1 C78_margin: the margins, for every table returned. |
| C79 | Transitions can be looked up by full sublevel names | TransKeys, SubTrans [TransFresh, TransKeys] | parsing of full names, then C30; counterexample | partial: C79_fresh_partial: the first lookup of a hyperfine line by the full names of its ends computes the lines and finds the right one; other theorems: hyperfine, Zeeman and mJ names whose sublevels lie in the order of their levels; with overlapping manifolds the lookup raises KeyError (C79_overlap_raises, C79_fails) |
| C80 | Transition aliases | TransKeys [TransList] | invariant of the alias table over operation sequences; counterexample | partial: assignment and persistence proved for all histories; a transition removed with its level is still found under its alias (C80_fails) |
| C81 | The listing of transitions is faithful | TransKeys, Graph [TransList] | edge listing without repetition | proved: all reachable atoms |
| C82 | add_transition by two names | TransKeys [TransList] | three cases of the pair; counterexample | partial: pairs without a transition and pairs listed in the order named; the reverse order replaces the transition (C82_replaced, C82_fails), an order that contradicts the energies raises KeyError (C82_contradicts) |
| C83 | Enforcement in floating point errs by one rounding | Rounded [Rounded] | invariant over the DFS with any rounding function | proved: any rounding function; 53-bit round-to-even is one with relative error 2^-53; C83_path: along k set transitions the error of the sum is at most k roundings |
| C84 | Enforcement in floating point is idempotent | Rounded [Rounded] | as C83; counterexamples in 53-bit arithmetic | partial: settled atoms; in doubles a second enforcement can warn about a loop (C84_fails) and move the lowest level (C84_moves_fails) |
| C85 | The NIST table is cut at the first ionization limit | Nist [Nist] | rows with labels, first limit; counterexample | partial: tables with a limit row; without one nothing is left (C85_no_limit, C85_fails), without levels ValueError (C85_no_levels) |
| C86 | NIST rows are cleaned independently | Nist [Nist] | row-wise maps, the exception that leaves all rows; counterexample | partial: all columns but the second term always (C86_columns_partial), all columns when every second component can be given a term; one that cannot takes the second terms of all rows away (C86_fails) |
| C87 | Leading percentages are read | Nist, Regex [Nist] | backtracking: lazy and greedy runs over arbitrary texts; counterexample | partial: cells with a second component; a lone percentage such as 95 is read as 100 (C87_fails) |
| C88 | Missing terms come from the leading percentages | Nist, Regex [Nist] | backtracking; language argument for the absence of a match; counterexample | partial: terms without spaces; of a term with a space only the first word is taken (C88_fails) |
| C89 | One row per value of J | Nist, Util [Nist] | replace and split by induction over the list of values | proved: cells of half-integers with any of the four separators |
| C90 | Landé factor of a mixed level | Coupling, Level [Coupling] | Closed form of the loop of compute_gJ over all lists of LS components by induction; sortedness and permutation from C12; equal percentages through the dictionary; refuted with 75% 3P1 + 25% 1P1 | partial: False for mixtures: L and S of the leading component are used for all, percentages are not divided by 100, equal percentages collapse, an unknown component gives 0, J=0 gives nan. Proved: the value the code does compute, for every list of LS components. |
| C91 | LS composition lists each contributing LS term once | Coupling [Coupling] | The generic grid lemma (entries of a product of two aranges, zero amplitudes dropped) instantiated with the 6j (LK, JK) and 9j (JJ) amplitudes of Racah's formula; labels by the regular expression theorems; refuted with lc=20, lo=1 | partial: Proved for LK in full and for JK and JJ when lc+lo <= 20 (JK with a sign convention squaring to one, JJ with faithful 9j). C91_missing: a quantum number that is not given is a TypeError. Fails for L >= 21: IndexError. |
| C92 | LS composition keeps the parity | Coupling [Coupling] | No letter of the table is a star; refuted with "P 2[1]*" | partial: Holds for even terms and for LS terms; a coupled term loses its star. |
| C93 | Impossible coupled states are rejected | Coupling [Coupling] | Triangle conditions make every amplitude zero; refuted by any non-coupling state | partial: Such states give an empty list; the ValueError in the code is unreachable. |
| C94 | Landé factor of coupled levels | Coupling [Coupling] | Closed form of the sum with amplitudes; refuted with an LK level whose amplitude is negative | partial: The code weights with the amplitudes, not their squares; the value it computes is proved, and a level with a negative factor is exhibited. |
| C95 | LS compositions add up to 100 % | Coupling, Wigner [CouplingSum] | Three-term recurrence of Racah's sum gives 6j orthogonality, a Dougall sum its norm; 9j norm from both; refuted with Yb+ 6s<1/2> | partial: Proved for the three conversions on numbers that couple (lc+lo <= 20); from the text it fails where the parser reads spin 0 for a single electron (C95_fails). |
| C96 | Hyperfine strengths of every allowed line add up | SubTrans, World, Wigner [SumRules] | The code's selection rule implies the triangle rule of the leading multipole; 6j norm | proved: all spins and parities; Wigner backend faithful (Wig.Good) |
| C97 | Zeeman strengths of a hyperfine line add up | SubTrans, Wigner [SumRules] | Raising and lowering relations of the 3j sum make the norm independent of the projection, Vandermonde's sum fixes it; refuted with F=0, F'=2 | partial: Proved for the dipole types and for E2 with F'=F; E2 from F=0 to F'=2 has no strength at all (C97_fails). |
| C98 | Every Zeeman sublevel has the same total strength | SubTrans, Wigner [SumRules] | C96 and C97 together; refuted with J=0, J'=2, I=0 | partial: Proved for lines with a dipole type; the E2 line J=0 to J'=2 with I=0 has strength zero (C98_fails). |
| C99 | Enforcement does not move pinned levels | World, Graph [Pinned] | relation kept by every step of the search; counterexample | partial: Levels stay pinned, and nothing moves when all set transitions lie between pinned levels the right way round, however contradictory; false when a pinned upper level has come to lie below its lower one (C99_fails). |
| C100 | Levels linked to a hyperfine level | Linked [Linked] | specification of the edges added per transition, then by induction over the linked transitions; counterexample | partial: Exactly the hyperfine levels within the reach of the selection rule on F are listed, each with its transition, once each, also when asked again; forbidden pairs such as F=0 to F'=0 are listed as well (C100_fails), and pairs at distance 2 are missing when M1 and E2 are both allowed. |
| C101 | Lifetime of a hyperfine level | Linked, Derived, SubTrans [Linked, NoRate] | permutation of the listed transitions to a sum over channels and F', sum rule of the 6j symbols | partial: The lifetime comes out as that of the level times (2J+1)/(2F+1) (proved for every atom and F), hence false (C101_fails). |
| C102 | Branching ratios of a hyperfine level | Linked, Derived, SubTrans [Linked, NoRate] | permutation of the listed transitions to a sum over channels and F', sum rule of the 6j symbols | proved:  |
| C103 | Turning the light about the quantisation axis changes nothing | Wigner [Geometry] | selection rule leaves one component; polynomial identities; counterexamples with exact Wigner symbols | partial: Proved for the dipole functions and for E2_mel_geom unless M stays or changes by two; E2_mel_geom is wrong for these (C103_fails, C103_two_fails), E2_transition_strength_geom even for M changing by one (C103_strength_fails). |
| C104 | E2 strength is the squared matrix element | Wigner [Geometry] | selection rule leaves one component; counterexample with exact Wigner symbols | partial: Proved for M changing by one and light in the xz plane; false in general (C104_fails). |
| C105 | Realistic diagrams have the lines at the heights of the energies | Grotrian [Heights] | rows computed in the populated atom, heights kept while further sublevels are populated | proved: For the default of squeeze, positive widths and fill factors between 0 and 1. |
| C106 | Schematic diagrams space the lines equally about the level | Grotrian [Heights] | as C105; counterexamples | partial: Equally spaced in F, with the step given by the outermost F; the lines are half a step too low (C106_fails) and ordered by F even where that is not the order of the energies (C106_order_fails). |
| C107 | Levels linked to a Zeeman level | Linked [LinkedZ] | specification of the edges added per hyperfine transition, then by induction over the linked hyperfine transitions, on top of C100; counterexample | partial: Exactly the Zeeman levels within the reach of the selection rules on F and m are listed, each with its transition, once each, also when asked again; forbidden pairs such as F=0 to F'=0 are listed as well (C107_fails), and pairs at distance 2 are missing when M1 and E2 are both allowed. |
| C108 | Lifetime of a Zeeman level | Linked, Derived, SubTrans [LinkedZ, NoRate] | permutation of the listed transitions to a sum over channels, F' and m', sum rules of the 6j and 3j symbols | partial: For dipole lines the lifetime comes out as that of the level times 2J+1, whatever F and m (proved), hence false (C108_fails). Quadrupole lines have wrong strengths already (C97, C98) and are left out. |
| C109 | Branching ratios of a Zeeman level | Linked, Derived, SubTrans [LinkedZ, NoRate] | permutation of the listed transitions to a sum over channels, F' and m', sum rules of the 6j and 3j symbols | proved:  |
| C110 | NIST cells are stripped of their decoration | Nist [Cells] | every text splits uniquely into decoration, bare text, decoration; congruence over the rows | proved:  |
| C111 | Transition tables are loaded by the columns named | Load [Load] | induction over the keys picked; case analysis of the synonyms | proved: That the dictionary is optional in the signature but required by the code is recorded (C111_none). |
| C112 | Frequencies and rates of a loaded transition table carry units | Load [Load] | induction over the cells; counterexample | partial: True of the rates (C112_rates_partial). No frequency ever gets a unit (C112_never, C112_fails); populate_transitions_df hands it on as it is and enforce_consistency then asks it for .to(Hz). |
| C113 | Level tables are loaded by the columns named | Load [Load] | induction over the columns picked; counterexample | partial: With the default columns no file can be read: KeyError always (C113_default, C113_fails). With a dictionary having the key 'Level (cm-1)' it holds (C113_explicit_partial, for numeric level columns; texts are C114). |
| C114 | Level values survive loading | Load [Load] | induction over the cells; filter of decoration; counterexample | partial: True if all cells can be read (C114_clean_partial), and always for unsigned decimals, with or without marks around them (C114_decimal_partial). One unreadable cell strips the signs of all others (C114_fails). |
| C115 | A full atom from a table | Load, Table, Derived, IO [Full] | composition of the theorems about from_dataframe, apply_hf_csv, populate_transitions_df and populate_internal_transitions; counterexample | partial: Proved with a transition table (C115_table_partial). Without one the call raises KeyError for every table with a level of J at most 20 (C115_raises, C115_fails); with transitions_csv it raises NotImplementedError (C115_csv). |
| C116 | Sublevels are listed as a dictionary | Items [Items] | the state after lazy population (lazyHF_ok, lazyZ_ok) read by each method | proved:  |
| C117 | Sublevels can be deleted | Items [Items] | dictionary deletion and the laziness test; concrete counterexample | partial: Proved for levels already populated with more than one sublevel (C117_hyperfine_partial, C117_zeeman_partial); absent keys raise KeyError (C117_absent). False in general (C117_fails): the last sublevel comes back as a new object at the next access, and deletion before the first access raises KeyError. |
| C118 | Transitions can be assigned and deleted by item | Items [Items] | removal of an edge from a symmetric adjacency; concrete counterexample | partial: Both statements always raise TypeError because the methods have the wrong number of arguments (C118_fails). Called as a method with two names, deletion removes exactly the one transition (C118_method_partial); append is add_transition (C118_append). |
| C119 | The constructor takes levels and transitions | Items [Items] | induction over both lists; frame of add_transition; concrete counterexample | partial: Proved for the levels (C119_levels) and for transitions between listed levels (C119_transitions_partial). Transitions do not bring their levels (C119_fails), against the docstring. |
| C120 | The fields of a Gaussian beam | `Beam`, `Beam.w`, `Beam.E`, `Beam.B`, `Beam.phase`, `Beam.radius` in Model/Environment.lean over real numbers. [Beam] | Real analysis: monotony of the root and of arctan, the inequality between arithmetic and geometric mean for the radius; witnesses `axisBeam`, `circBeam` for the false parts. | partial: Width, profile, phase and radius are as claimed; radius_at raises at the waist. False: E multiplies the polarisation in twice, so circular light comes out linearly polarised (C120_circular_fails), and B takes the cross product with the polarisation instead of the direction, so it is zero for light polarised along an axis (C120_magnetic_zero, C120_fails). The constructor never returns a beam (C76_beam_raises): the theorems are about objects with the attributes set. |
| C121 | Arrows of a diagram run between the lines of their levels | `computeArrow`, `posOf`, `render`, `addLines`, `tableOf` in Model/Diagram.lean. [Diagram] | Case analysis over the lineage of a level; induction over the prompts; witness `arrowAtom`, `movedAtom`. | partial: Proved: an arrow is at the anchors of the first line of the nearest level drawn (C121_aims_partial), for new diagrams of gross structure it connects the middles of the lines asked for (C121_gross_partial), levels not drawn raise IndexError or ValueError (C121_not_drawn_raises). False: lines of earlier renderings stay in the table and the first one counts, so after a change of energy arrows end at the old height (C121_fails). The keyword override_bbox always raises (C121_override_raises). |
| C122 | Rendering a diagram again | `render`, `addLines`, `segments` in Model/Diagram.lean. [Diagram, Strategies] | Induction over the prompts (`addLines_append`); witness `arrowAtom`. | partial: False (C122_fails): render_levels appends to lines_df, so every line is there twice after the second call. Proved instead: for every diagram a rendering shows the lines of the renderings before followed by those of a new diagram (C122_appends), for gross structure exactly each line twice (C122_twice_partial). C122_other_raises: unknown strategies. |
| C123 | A sublevel drawn alone is drawn as in the whole level | `tableOf`, `grossTable`, `hfTable`, `zeemanTable`, `hRowZ` in Model/Diagram.lean. [Diagram, Strategies] | Rows of a table computed in the state in which the single row is computed (`hTableF_rows`); witness `aloneAtom`. | partial: Hyperfine levels: C123_hyperfine_partial; Zeeman levels with the Zeeman strategy: C123_zeeman (J + I at least 1, otherwise drawing raises, C68_small_raises). False for Zeeman levels with the hyperfine strategy: the shift taken is the Zeeman shift alone, so the line is drawn as if there were no hyperfine shift (C123_fails). Also C123_gross, C123_manifold, C123_unsqueezed: what is drawn at each level of detail. C123_displaced: exactly where a Zeeman level with the hyperfine strategy is drawn. |
| C124 | Brackets and rectangles around levels | `brackets`, `bracketList`, `rectList`, `bracketColours`, `cycleColours` in Model/Diagram.lean. That LineCollection uses colours in turn is matplotlib's documented behaviour and trusted. [Diagram] | Induction over the table; witness `redBlue`. | partial: Places and rectangles are right for all tables (C124_places, C124_rectangles), colours if all are the same (C124_same_colour_partial). False otherwise (C124_fails): there are two brackets per line but one colour per boxed line of any kind, and matplotlib uses the colours in turn, so with a red and a blue line all left brackets are red and all right ones blue. |
| C125 | Centre of gravity of hyperfine lines | `hSubs`, `newHTr`, `hFreq` in Model/SubTrans.lean. [Gravity] | The dictionary is a permutation of the coupled pairs of hyperfine numbers (`lines_perm`); pairs left out have strength 0; rows and columns of strengths add up as in C96 and the shifts as in C19. Witness `gravAtom`. | partial: Proved for transitions with a rate between manifolds that do not overlap (C125_gravity_partial). False for a transition without a rate, all lines of which get the strength 1 (C125_fails), and for overlapping manifolds, such as a transition inside a level (C125_inside_fails). |
| C126 | Total curve of a spectrum | `interp`, `totalAt`, `totalCurve`, `drawLine`, `plotTransitions` in Model/Plot.lean. [Plot] | Induction over the points of a curve with strictly increasing first coordinates, and over the curves; sorting by uniqueness of the sorted permutation. | partial: All but the last part hold (C126_sum, C126_order, C126_single, C126_above, and C126_inside_partial where all curves are drawn). The last part is false (C126_fails): np.interp continues a curve beside its window with the height of its end point, so far lines lift the total everywhere. |
| C127 | Front ends of spectra draw every line | `plotSpectrum`, `plotHyperfine`, `plotZeeman`, `tableColor`, `hypColor`, `zeeColor`, `specShape` in Model/Plot.lean. [Plot] | Case analysis; the colour table has an entry for every line. | partial: Proved for a line shape object and lists (C127_list_partial, C127_hyperfine_partial, C127_zeeman_partial). False with the default line shape, which is a class (C127_fails, C127_default_raises); plot_spectrum of one transition always raises (C127_one_raises), plot_zeeman_spectrum of a list of transitions too (C127_list_raises). Also C127_default_error, C127_colouring_raises, C127_empty_raises, C127_temperature. |
| C128 | Subtransitions read as a dictionary | `subLen`, `subKeys'`, `subVals`, `subItems`, `subHas`, `subGet` in Model/SubItems.lean over `hSubs`, `zSubs`. [SubItems] | `hSubs_spec` and `zSubs_spec` give the dictionary and its keys; a second computation leaves it and the state alone (`hSubs_again`, `zSubs_again`). Witness `dAtom`. | partial: Proved but for membership: t[key] also accepts the names exchanged, which `in` does not (C128_hyperfine_partial, C128_zeeman_partial, C128_exchanged_fails, C128_fails). Every such method of a Zeeman transition raises an AssertionError (C128_lowest_raises). |
| C129 | Assigning and deleting subtransitions | `subSet`, `subDel` in Model/SubItems.lean. [SubItems] | Lookup laws of insertion-ordered dictionaries, and laziness of the computation (`Lazy`). Witness `dAtom`. | partial: Proved for transitions whose dictionary was computed before, and for deletions that leave an entry (C129_set_partial, C129_del_partial, C129_unknown). False otherwise: an assignment to a fresh transition suppresses the computation of the others (C129_first_set), a deletion from one raises, and deleting the last entry brings all of them back (C129_last_del); C129_fails. |
| C130 | Saving and loading an atom | `saveAtom`, `loadAtom`, `Disk` in Model/SubItems.lean; `saveName` in Model/IO.lean. [SubItems] | Case analysis on the name with C61_rule and the lookup laws. pickle is taken to restore what it was given. | partial: Proved for the name of the file written and for names ending in .atom (C130_partial, C130_named_partial, C130_refused). False for a name without a dot: save appends .atom, load does not (C130_plain, C130_fails). |
| C131 | Centre of gravity of Zeeman lines | `zSubs`, `newZTr`, `zFreq` in Model/SubTrans.lean; `popZ1`, `zShiftHz` in Model/World.lean. [GravityZ] | The dictionary is a permutation of the coupled pairs (`zlines_perm`); strengths and couplings are even under reversal of all m, shifts odd (`sum_odd`); sublevels made lazily share factor and quadratic coefficient (`zSubs_even`). Witness `zgAtom`. | partial: Proved for Zeeman levels that do not overlap, for every type and with or without a rate (C131_gravity_partial); sum of the strengths for dipole transitions with a rate (C131_total_partial). False for overlapping levels, such as a hyperfine level and itself (C131_fails). |
| C132 | Adding a transition by a pair of levels | `addTransLevels`, `addTransArg` in Model/TransKeys.lean. [AddTrans] | Constructor, registration and enforcement composed as in C82 (`addTransLevels_spec`); that the old transition is gone uses that each transition object joins one pair of levels only (`adj_between`). | partial: Making the transition is proved for all pairs of levels (C132_new), agreement with the names as long as the levels are not joined already (C132_agree_partial). For a pair joined already the names give the transition that is there while the levels replace it silently (C132_replaces, C132_fails). Two levels not in a pair raise, as in species/Yb_II_171.py (C132_refused); data given along with a transition object are ignored (C132_ignored). |
| C133 | Wavelength and frequency | `hzToNm`, `FreqQ.toHz`, `wl`, `hWl`, `zWl` in Model/Wavelength.lean; the unit conversion is pint's, taken as division of rationals. [Wavelength] | Field arithmetic on the distance of the two energies (C26_distance); reading back composes the conversion with C37_first_partial. Witness: two levels of equal energy joined by a transition. | partial: Proved for transitions between levels of different energies (C133_product_partial), with order (C133_order), the sum rule (C133_ritz), hyperfine and Zeeman transitions (C133_sub), wavenumbers (C133_units) and setting a wavelength (C133_set_nm, C133_set_partial). Between levels of the same energy the wavelength raises ZeroDivisionError (C133_raises, C133_fails). |
| C134 | Constants change only by assignment | `newLevel` and all calls of Model/World.lean. [Constants] | A relation `CKeep` (constants of existing levels unchanged) shown for each function and composed; induction on the list of calls. | proved: C134_kept and C134_assigned hold for every history; C134_energies puts them together with C25 and has its condition on Lande factors assigned too late (for any level). |
| C135 | Printed forms | Model/Repr.lean: the parts of each text; how numbers are printed is not modelled. [Repr] | Unfolding; the number of sublevels from C13 through `lazyHF_ok`. | partial: Proved for containers that are not empty, atoms, transitions and levels whose sublevels were asked for before (C135_containers_partial, C135_level_partial, C135_rest). Empty containers raise IndexError, every MultiTerm raises TypeError, a level shows 0 sublevels before they are first asked for (C135_empty_raises, C135_multi_raises, C135_fresh, C135_fails). |
| C136 | Two atoms in one program are independent | Model/TwoAtoms.lean: two atoms over one heap of objects; each call is the call of Model/World in the world of the atom it uses. [TwoAtoms] | Invariant over both atoms (`Kept`): graphs, aliases and transitions stay within the levels of one atom. Triples (`Tri`) for each function show that nothing of the other levels changes; induction on the program. | partial: Proved for all programs with two atoms in which no level is added to both (C136_call_partial, C136_calls_partial), and a program touching one atom only acts as on that atom alone (C136_single). False when a level is added to both: the level is one object, so enforcing frequencies in one atom moves it in the other (C136_fails). |
| C137 | Sublevels follow the spin of the atom | Model/TwoAtoms.lean. [TwoAtoms, TwoLookup] | Part of the invariant of C136 (`made`, `fresh`), with C13_multiplet. | partial: Proved for programs that add no level to two atoms (C137_spin_partial, C137_levels). False otherwise: sublevels computed in one atom stay when the level is added to an atom of another spin, and the right ones are missing (C137_fails, C137_missing); C137_lookup: shared levels take their sublevels from the atom they were added to last, in lookups by name too |
| C138 | set_frequency acts in the atom of the transition | Model/TwoAtoms.lean (`target`). [TwoAtoms] | The call reduces to the single-atom call in the world of the owner (`run_view`), whose invariant is that of C136; then C37 for well-formed worlds (`first_wf`). | partial: Proved for programs that share no level, for the groups of C37_first_partial (C138_first_partial). False once the first level of the transition is added to a second atom: the frequencies of that one are enforced and the transition keeps its old frequency (C138_fails). |
| C139 | Plain and modulated Lorentzian agree | `lorentzianShape`, `modShape`, `modWidth` in Model/Lineshape.lean; the Bessel functions are a parameter with their values at 0 as hypotheses. [Lineshape] | The sum collapses to the carrier (C65_no_depth); the half-maximum points of the two bells (C63) determine the widths. | partial: Proved without A_coeff (C139_plain_partial). With A_coeff = a >= 0 the lines agree exactly for a = 0 (C139_iff, C139_fails): one class adds A_coeff to gamma as it is, the other divides it by 2 pi 10^6 first. |
| C140 | Colours of a spectrum tell the lines apart | `colourBy`, `colourTable`, `tab10` in Model/Hue.lean; colours are indices into the map. [Hue] | Places in the sorted list of different values are injective; pigeonhole for the clash. | partial: Proved for at most ten different values (C140_ten_partial), with the order of colours (C140_order, C140_first); a value not in the list raises (C140_raises). False for every list with more (C140_clash, C140_fails): tab10 has ten colours and gives its last one for every larger index, e.g. the sublevels of F = 5. |
| C141 | A level made with parent=atom belongs to the atom | Model/Placed.lean: the constructor with a parent; the rest as in Model/World. [Placed] | The new object is in no node of the graph; the lookup goes through the names in the graph. C141_add_partial by unfolding both programs to the same world. | partial: False: the constructor stores the atom in the level but does not add the level to the atom's graph, so the atom neither lists nor finds it (C141_missing, for every reachable atom and unused name; C141_fails). Followed by add_level it is as a level made without parent (C141_add_partial). Its sublevels can be computed (C141_sublevels); a transition between two such levels is listed by atom.transitions although its levels are not, and looking it up raises KeyError (C141_ghost). |
| C142 | The quick drawing shows every level and transition | Model/Draw.lean: positions dictionary, removal of self loops, and networkx' draw as the loop over nodes that needs a position for every node. [Draw] | Every node of a reachable atom carries a level (Reachable.levelled); the positions dictionary is evaluated key by key; for the others a node without a position exists because names of sublevels differ from names of levels. | partial: Proved for 'norm' (C142_levels_partial). False for 'hf' and 'z': positions are taken for the keys of the attribute tables, which have no nodes for sublevels, and networkx raises as soon as one sublevel exists (C142_raises, C142_fails). |
| C143 | The thermal line has the Doppler width | Model/Thermal.lean: sigma as in the constructors, on top of Model/Lineshape. [Thermal] | The spec is the Boltzmann factor of the velocity that shifts the line to x (`doppler`); its half width is derived (`doppler_bell`) from C73_gaussian. | partial: False: sigma is computed with the factor 8 of the formula for the full width at half maximum without its ln 2, so the line is that of eight times the temperature (C143_hot_partial, C143_hot_thermal_partial), sqrt 8 times too wide (C143_wide) and too high everywhere off the centre (C143_high); C143_fails. |
| C144 | The thermal line has the height asked for | Model/Lineshape.lean (`thermalShape`) with scipy's voigt_profile as its documented convolution integral (`voigtProfile`, in Props/Thermal.lean). [Thermal] | The integral is bounded by the maximum of the normal distribution times the area of the Cauchy distribution, which is computed from the integral of 1/(1+x^2). | partial: Proved when one width is more than 25 times the other (C144_limits_partial). False in between: scipy's Voigt profile has area 1, so the line is nowhere higher than ampl/(sqrt(2 pi) sigma x0) (C144_low, C144_half) and the height jumps at the cutoff (C144_jump); C144_fails. |
| C145 | The unit and the zero of energy are conventions | The whole model of levels, transitions and the atom (18 calls), over rationals. [Affine] | `World.aff` and `Op.aff` state the change of unit on the data a user sees; each function is shown to commute with it (`AffAt`), enforce_consistency by induction over its recursion. | proved: C145_history: the run in the other unit is the run in the old one, counted in the other unit, with the same outcomes, for all calls and all states; C145_observed: what that means for energies, frequencies, lookups, names and warnings; C145_unit: the unit alone from the construction on. Floats are rationals in the model, so rounding is not covered. |
| C146 | Looking things up is invisible | The whole model; `Act` mixes calls and lookups. [Quiet] | `Alike` (equal up to sublevels made); every call is shown not to look at the sublevels made (`Deaf`), every lookup to change nothing else (`LFrame`). | proved: C146_invisible for all programs; C146_same and C146_hyperfine say what stays the same; C146_lookups lists the lookups. Two limits belong to the claim: Zeeman levels keep a Lande factor computed before a later assignment (C25), and calls on sublevel objects need the sublevels to exist. |
| C147 | Ritz's combination principle | `freqHz`, `hFreq`, `zFreq` and the energies of levels and sublevels. [Ritz] | Ways are an inductive relation; induction over them. | proved: C147_sum, C147_loop for ways of any length, C147_hyperfine for a hyperfine line against its transition. Rounding is not covered. |
| C148 | The interval rule of hyperfine structure | `hfShift`, branch by branch. [Ritz] | Polynomial identities over the rationals, by cases on which branches of the function apply. | proved: C148_interval, C148_levels (the levels in an atom), C148_linear. |
| C149 | The order of construction does not matter | `newLevel`, `addLevel`, the sorted view of the levels container and its integer keys. [Order] | The ranking as a list of names and energies is a permutation and sorted on both sides; the levels built are characterised by induction over the list. | proved: C149_rank (any two reachable atoms), C149_order (any permutation of the levels added). With equal energies the level at a rank is the one added first, so only the energy agrees. |
| C150 | Frequencies set one after another are all met | Transition.set_frequency and Atom.enforce_consistency on any atom. [Outward, Tuning] | `InTune` (all set frequencies met, exactly their levels pinned) is kept by each call with a loose end (`tune_step`), then induction over the list. | partial: C150_outward_partial for every outward order; C150_joined: a call between two pinned levels changes no energy; C150_fails with a ladder of four levels whose outer steps are set first. C150_some_order: in an atom without set frequencies every loop-free set of transitions has an order that works. |
| C151 | The species scripts build their atoms | What the three scripts do with the loaded atom (Model/Species.lean). [Species] | Each line keeps `Lines` (the frequencies set are exactly those given so far, and met), from `tune_step` and `addTransLevels_spec`; the second lookup succeeds because the first override moves neither of its levels. | partial: C151_173_partial, C151_174_partial: success, frequencies and rates; C151_171_raises for all atoms, C151_171_partial: TypeError, after three frequencies have been met; C151_fails. The tables themselves and Atom.save are not modelled. C151_two: two positional names, levels or sublevels. |
| C152 | Zeeman patterns | HFTransition's sub-transitions, ZLevel.shift, frequencies (Model/SubTrans.lean, Model/Linked.lean). [Mirror] | `zpattern`: separated manifolds resolve the absolute value with one sign, so each frequency is q + sg(s'm' - sm); the list of lines is a permutation of the coupled pairs, which is closed under reversal. | proved: C152_mirror, C152_normal. The conditions are part of the claim; for overlapping manifolds C131_fails has a pattern that is not symmetric. |
| C153 | From NIST's table to the atom | _load_NIST_data after the download (Model/Nist.lean), Term construction (Model/Term.lean), from_dataframe (Model/Table.lean). [NistAtom] | `clean_prefix` cuts at the first limit, `cleaned_of_gives` gives the columns of each row (the second component by `search_full`), `split_J` the values of J, `C04_LS` the terms, `C50_loaded_partial` the atom. | proved: C153_atom. The shape of the rows (LS terms) and the different names are part of the claim; C50_fails and C85_no_limit treat repeated names and tables without a limit. |
| C154 | The orthogonality warning | np.dot, np.linalg.norm and the check (Model/Ortho.lean) over any field, with a rounding and a square root as parameters; sums are added from left to right; zero vectors are not modelled. [Ortho] | Exact: the norms cancel. Roundings are written as factors 1 + d, and the last one vanishes only at zero. The counterexample is evaluated by the kernel with the 53-bit rounding of C83. | partial: C154_exact_partial, C154_axes, C154_turned, C154_silent; C154_fails: in doubles (2, 3, 6) and (3, -6, 2), both of length 7, are at right angles and the warning is given. |
| C155 | Setting a frequency to its present value | set_frequency and enforce_consistency of Model/World.lean. [Present] | A relation kept by every step of the enforcement: from a state in which all set frequencies are met no energy changes. Setting the present frequency leads to such a state, whether or not the upper level is released. | partial: C155_present_partial (transitions with the upper level not below the lower one) and C155_enforce; C155_fails: g at 0 and a at -5, with the transition built with a above and set to 5, the frequency it has; setting it to 5 moves a to 5. |
| C156 | Scanning a frequency and setting it back | A scan is a list of set_frequency calls run by runAll (Spec/Atom.lean). [Scan, ScanTree] | Induction over the scan: each step keeps the transition ready to be scanned, by C37_leaf_partial, C39_only_group and C99_stays_pinned. In a tree: the invariant Retunable (set transitions that do not end at the upper level are met), each step by induction over the search (enfEdges_moved'). | partial: C156_scan_partial and C156_undo_partial for a transition whose upper level has no other set transition, in an atom otherwise pinned and met; C156_tree_partial and C156_tree_undo_partial inside an enforced tree, where the scan breaks the other set transitions at the level moved and setting back mends them (excluded: frequencies that turn one of them upside down, C37_mirror); C156_fails: set to zero and back to 1, the upper level stays where the zero put it, because set_frequency releases it only if the earlier set frequency is truthy. |
| C157 | All the Zeeman levels of a level | The comprehension over level.values() and h.values() (Model/Items.lean). [Whole] | An invariant for the factors, induction over the listing, C14_total, C19_centroid and C21_sum. | proved: C157_whole, C157_mean. The Zeeman levels of one hyperfine level have one and the same Lande factor in every reachable state (SameG), also when g_J was changed in between. |
| C158 | A call that raises changes nothing | All calls of Op (Spec/Atom.lean). [Atomic] | Case distinction over the calls; an invariant (a built transition has its first level in the atom), enforce_group, popHFs_ok and C146's Alike. | partial: C158_atomic_partial and C158_as_if_partial exclude the three calls (Op.Leaky); C158_alias_kept, C158_listed, C158_edge_set say what they leave behind in general; C158_fails refutes the claim as stated. The constructor of Transition is C47. |
| C159 | The field acts on Zeeman energies only | All calls of Op (Spec/Atom.lean). [Field] | Every call commutes with exchanging the field (Blind), by induction over the loops of the calls; induction over the program. | partial: C159_field_partial, C159_energy, C159_mirror_partial, C159_reversal_partial; C159_fails is the assignment to the energy of a Zeeman level. |
| C160 | What the warnings of enforce_consistency say | World.enforce (Model/World.lean). [Warnings] | The searches of all components are one list of edges (enforce_edges) in which every edge leads to a level not touched before: hence no transition twice, and in a tree every transition once (LoopFree.connOff); permutation with the listing of C81. | partial: C160_bound and C160_no_false hold for all triggers and also with loops; C160_check_partial gives the exact number for trees of pinned levels; C160_warns_without_loop; C160_fails is the triangle of C40. |
| C161 | The same program gives the same atom in every run | World.enforce (Model/World.lean); the order of iteration is the argument σ. [Seeds] | Every edge of the searches joins two different levels (enforce_edges) and every level with a partner is on one; two outcomes that meet the same frequencies and agree at one level agree on the group (agree_group); the common level is the lowest or a pinned one (enforce_group); induction over the program. | partial: C161_pinning holds for all atoms; C161_same_partial (one enforcement) and C161_program_partial (programs, also with set_frequency and add_transition) give equality of the whole atom; C161_fails: g-a 1, b-a 3 with g and b at 0 gives a at 1 or at 3; C161_loop: the triangle 1, 1, 5 puts b at 2 or at 5. |
| C162 | The order of retunings does not matter | World.setFrequency, World.enforce (Model/World.lean). [Commute] | set_frequency is a list of steps found by the search (searchOf), which depends on the graph, on which transitions are set and on the energies of the group only (searchOf_congr); steps at different levels commute as functions of the whole state (enfStep_comm, prep_enfStep, prep_comm); induction over the permutation. | partial: C162_two_partial and C162_any_order_partial; C162_fails within a group. Frequencies set for the first time are not covered: they change the set of nodes networkx iterates (C161). |
| C163 | Enforcing the whole atom is enforcing its groups one at a time | World.enforce (Model/World.lean). [Groups, Replace] | The steps of a group depend on the energies of its levels only (enfComp_acts) and commute with those of another group; induction over the permutation that takes the chosen groups to the order of networkx (compsRun_perm); the chosen transitions and the components are the same list up to order. | proved: Holds with loops and with frequencies that cannot be met. The iteration order of the sets is the same in all calls. |
| C164 | enforce_consistency can be restricted to a level or a transition | World.Trigger, World.triggeredT, World.enforceT, World.enforceLevel (Model/Trigger.lean), tied to World.enforce by enforceT_all and enforceT_pair. [Groups] | Case analysis on the first component networkx yields; enforce_pair_comp for the group of the level; C116 for the number of hyperfine levels. | partial: C164_single_partial; the other branches C164_second_group, C164_other_name, C164_two_characters, C164_level, C164_hyperfine, C164_zeeman, C164_transition, C164_none_set; C164_fails (level objects) and C164_name_fails (names). Names of one character are modelled but not covered by the error theorems; the subtransitions of a transition object are taken to be computed already. |
| C165 | A frequency given to a transition standing alone takes effect | World.enforce (Model/World.lean), World.transDelCall (Model/Items.lean). [Replace] | The search of a group with one transition is one step (alone_step); enforcing the whole atom acts on a group as enforcing this group does (C163_group); case analysis on the step. | partial: C165_alone_partial, C165_moves, C165_pinned, C165_removed; C165_again: set_frequency works; C165_fails: replacing a transition by one with another frequency has no effect but a warning. |
| C166 | Energies, constants and fields can be given in any unit | Qty, UnitQ, Qty.toHz, Qty.ofHz, World.newLevelQ, setLevelQ, setHfAQ, setHfBQ, setHfCQ, setBQ, hSetFreqQ, zSetFreqQ (Model/Units.lean). [Units] | Field arithmetic on pint's conversion path; the assignments reduce to those in Hz (C24_rigid for the sublevels); concrete atoms for the failing cases. | partial: C166_value, C166_back, C166_level_partial, C166_sublevel_partial; C166_fails: a level cannot be put at 0 cm^-1; C166_sublevel_fails: a hyperfine level cannot be put at 1 cm^-1. |
| C167 | The hyperfine levels share out the magnetic moment of the level | compGF, zShift (Model/Level.lean), World.lazyHF, lazyZ (Model/World.lean). [GSum] | Telescoping sums over F and m; the factors stored in the Zeeman levels are the current ones (GInv, C25); the listing of all Zeeman levels by manifolds (C157). | partial: C167_moment_partial, C167_factors, C167_factor, C167_stretched; C167_fails: after a late assignment of lande (C25). |
| C168 | The hyperfine constants can be computed back from the energies | iDotJ, fE2, fM3, hfShift (Model/Level.lean), World.lvSubs, hHz (Model/World.lean). [Fit] | The weighted sums of powers of I·J over the multiplet telescope (mom1-mom5); the three patterns are orthogonal (ortho12, ortho13, ortho23) and do not vanish at F=I+J (C20). | proved: C168_recover, C168_unique, C168_blind, C168_variance, C168_levels. |
| C169 | The README's lookup of a transition by two levels | World.levelsGetLevel, levelsGetK, transGetK (Model/LevelKeys.lean), fromDataframe (Model/Table.lean). [LevelKeys] | The keys of the sublevels are 'F=...' with something after it (C116), so none of the three branches is taken and a level is no node; the loop of from_dataframe keeps the adjacency lists and the aliases of transitions empty. | partial: C169_names_partial (names), C169_never, C169_pair, C169_key, C169_mixed, C169_table; C169_fails: with two levels it raises KeyError. |
| C170 | A frequency that cannot be converted | FreqArg, Bad, World.enforceB, setFrequencyQ (Model/BadFreq.lean), the frequencies that raise in a table beside the world. The constructor's freq (atom.py:580) is not modelled with such arguments. [BadFreq] | Both walks run over the same list of edges (comp_search); with frequencies that raise it is cut at the first of them. Without loops every set transition of the group is on the list (LoopFree.connOff). | partial: C170_what, C170_raises_partial (no loops), C170_poisoned, C170_poisoned_set, C170_elsewhere, C170_good; C170_fails: in a loop the search may not come to the transition, and the call returns (C170_order: with the neighbours in another order it raises); C170_undone_fails: after the refused call enforce_consistency() raises. |
| C171 | A linewidth assigned after construction | RateQ, Rates, World.ratesQ, totalAQ, stateLifetimeQ, branchingQ, setA (Model/Rates.lean): the attribute A of every transition in a table beside the world; all rates are frequencies. [Rates] | The decays of a level are the list of C43; factors of the unit cancel in the shares. popSubs commutes with a map on the lines that keeps types and keys. | partial: C171_lifetime, C171_one_unit_partial, C171_built, C171_hyperfine, C171_zeeman, C171_stale, C171_none, C171_bare; C171_fails: 1 Hz and 1 kHz give equal ratios; C171_lines_fails: computed lines keep the old rate. |
| C172 | Transitions between sublevels added to the atom | SubT, SubW, SubW.enforce, newSub, addRefs, addNames, setFrequency (Model/SubEnds.lean): the atom with a table of the ends of such transitions; no A, name or alias. [SubEnds] | Transitions between sublevels join nodes without a level, the others join levels (an invariant), so components do not mix; the first edge of the search in a component of the first kind raises, and components of the second kind are enforced as in Model/World. | partial: C172_quiet, C172_raises, C172_named, C172_poisoned, C172_stays, C172_set, C172_elsewhere, C172_again, C172_cured, C172_mixed, C172_moves; C172_fails: g F=0 to a F=1 with frequency 400. |
| C173 | Hyperfine and Zeeman transitions made by hand | HandH, handHTr, handFreq, handSet, handZTr (Model/Hand.lean): the attributes without a parent; the edge in the hyperfine graph is not kept. [Hand] | Reduction of the constructor to the 6j symbols of Racah's formula (hTypes), compared with that of newHTr; zSubs_spec for the Zeeman lines. | partial: C173_made, C173_types_partial, C173_dipole, C173_freq, C173_set, C173_lines, C173_never; C173_fails and C173_freq_fails: the D2 line with I = 3/2, F = 1 to F' = 2. |
| C174 | Sublevels assigned by hand | ManW, man, hShift, hHz, zHz, setHLevel, assign, assignZ, keys, item, del, popZ1, popZs, lazyZ (Model/Assign.lean): the manifold of a hyperfine level kept beside its parent. [Assign] | The assignment keeps every manifold, so shifts stay and only the energy of the parent changes; induction over the Zeeman levels made for the g-factors. | partial: C174_moved, C174_zeeman, C174_rest, C174_sits_partial, C174_follows, C174_set, C174_listed, C174_hides, C174_deleted, C174_same, C174_assignZ, C174_gF; C174_agrees and C174_agrees_zeeman tie the extended state to the atom; C174_fails: g['F=1'] = a['F=1'] with A = 4 and 8. |
| C175 | A transition made with a frequency that cannot be converted | newTransQ, addTransitionQ, addPairQ (Model/BadFreq.lean): the constructor and add_transition for transitions whose freq attribute raises in to_base_units. [BadNew] | Reachable atoms of C170 extended by the two calls; enforce_consistency visits every set transition of a loop-free atom, so the first one that cannot be converted stops it. | partial: C175_constructor, C175_made, C175_raises_partial, C175_poisoned, C175_without, C175_repaired; C175_fails: g-a with freq=5 raises AttributeError and stays; C175_loop: closing a loop it raises or not, depending on the order of the neighbours. C175_object and C175_refused: the object put in, the constructor that raises. |
| C176 | Deleting a level and putting it back | levelsDel, addLevel, addTransition (Model/World.lean). [PutBack] | Induction over the transitions added again, with the invariant that the graph has the transitions of other levels and, of this level, those added so far; every set frequency met is an invariant of enforce_consistency. | partial: C176_deleted, C176_level_partial, C176_alone_partial, C176_transitions, C176_level_last, C176_accepted; C176_fails: g-a is gone after deleting a and adding it again; C176_alias: the alias taken back. |
| C177 | Branching ratios and lifetimes fit together | branching, stateLifetime (Model/World.lean); hypBranching, hypLifetime, zeeBranching, zeeLifetime (Model/Linked.lean). [RatesFit] | Both calls sum over the same transitions, as permutations of one list; the sublevels by C101, C102, C108 and C109. | proved: C177_rate; C177_hyperfine and C177_zeeman with the factors. Names, not aliases (C42). |
| C178 | Adding a level again | addLevel, populateHF, hfItem (Model/World.lean). [AddAgain] | Induction over the loop of populate_sublevels; the Zeeman levels by an invariant of the loop that makes them. | partial: C178_same_partial, C178_populated_partial, C178_zeeman; C178_fails: a quadratic shift of 3 Hz is lost; C178_alias: an alias given to another level meanwhile comes back. |
| C179 | Line patterns are rigid | Op.run, runAll, hHz, zHz (Model/World.lean), hFreq, zFreq (Model/SubTrans.lean). [Rigid] | Every operation keeps the quantum numbers, parents and g-factors of existing sublevels (PKeep, one lemma per operation, then induction over the history); constants by CKeep of C134. | partial: C179_hyperfine and C179_zeeman hold as stated; C179_lines_partial and C179_zeeman_lines_partial need the order kept; C179_fails: a line 7 Hz short of its transition of 400 Hz is 3 Hz beyond it when the transition is set to 2 Hz. |
| C180 | Aliases are only names | Op.run, runAll (Spec/Atom.lean, Model/World.lean); World.bare and unalias in Props/AliasFree.lean. [AliasFree] | Simulation: each function commutes with World.bare, by the structure of the function; then induction over the program. | partial: C180_world_partial, C180_same_partial, C180_result; C180_fails: the alias 'g 2S1/2 F=1' of another level hides the sublevel, which is then not computed. |
| C181 | Hyperfine constants and rates act on nothing else | Op.run, runAll (Spec/Atom.lean, Model/World.lean); World.mute and Op.mute in Props/Mute.lean. [Mute] | Simulation: each function commutes with World.mute, by the structure of the function; then induction over the program; two programs with the same muted program leave the same muted atom. | partial: C181_constants_partial, C181_sublevels_partial; C181_fails: putting a sublevel at 50 Hz leaves the level at another energy when A is another. |
| C182 | Lande factors and quadratic shifts act on nothing else | Op.run, runAll (Spec/Atom.lean, Model/World.lean); World.nomag and Op.nomag in Props/NoMag.lean. [NoMag] | Simulation: each function commutes with World.nomag, by the structure of the function (the factor of a sublevel raises or not whatever the Lande factor is); then induction over the program. | partial: C182_factors_partial, C182_zeeman_partial, C182_no_field_partial; C182_fails: putting a Zeeman level at 50 Hz leaves the level at another energy when the Lande factor is another. |
| C183 | Sublevels computed at once or later | addLevel, populateHF (Model/World.lean); Op.run, runAll (Spec/Atom.lean); Op.later in Props/Eager.lean. [Eager] | Populating changes sublevels only (Alike of C146), all calls about levels keep Alike and do not notice sublevels; induction over both programs against the one without flags. | partial: C183_worlds, C183_same, C183_results, C183_hyperfine_partial; C183_fails: after an assignment of the Lande factor the factor of a hyperfine level made at once is the old one. |
| C184 | Isotopes without nuclear spin | hfFs, hfShift (Model/Level.lean), levelsGet, hHz, zHz (Model/World.lean), hFactor (Model/SubTrans.lean). [Even] | The range of F has one element; the shift vanishes there (C18_zero); lookup by hyp_found; the strength from the sum rule C96_sums with one summand. | proved: C184_single, C184_energy, C184_zeeman, C184_line. |
| C185 | Linking of sublevels is mutual | linkedHyp, linkedZee (Model/Linked.lean). [Mutual] | From the exact lists of C100 and C107: the names of sublevels are injective, the graph is symmetric, and the selection rules do not change when the two ends are exchanged. | proved: C185_mutual_hyperfine, C185_mutual_zeeman. For levels all of whose linked levels can be looked up by name, as in C100 and C107. |
| C186 | Which level of a transition is given first | newTrans, setFrequency, addTransition, enforce (Model/World.lean), all calls (Spec/Atom.lean). [Flip, FlipLines] | Exchanging the ends commutes with every call, by induction over the program; enforcement does not care which end of the triggering transition comes first (components are closed under edges); the ends of every transition belong to the atom (invariant). Counterexample for a tie. | partial: Proved for transitions made between levels of different energies, or from a level to itself (C186_order_partial). False for two levels of the same energy, of which the one given first becomes the upper one (C186_fails). Hyperfine lines: C186_line_partial, for lines of different energies of their ends; false for E2 Zeeman lines between different F, the strength of which is computed with the F of the first end twice (C186_zeeman_fails). |
| C187 | Isotopes share their fine structure | addLevel, newTrans, setFrequency, addTransition, enforce (Model/World.lean), all calls (Spec/Atom.lean). [Isotopes] | Changing I commutes with every call that makes no sublevels, by induction over the program; combined with C183 (sublevels made at once or later) in each of the two atoms. | proved: C187_isotopes, C187_results. Calls that name sublevels are outside the claim: a shift of a hyperfine level depends on I. |

## Findings

Behaviour of the code that contradicts a property, or that came to light in modelling. Each with a theorem name is proved.

Levels and terms
* `l_to_let(-21..-1)` wraps to the end of the table (C02_negative_wraps_fails); `==` of terms ignores J, F and mF (C11); `==` of
  `MultiTerm`s of different lengths is not symmetric (C12); JJ terms with lower-case electrons get spin 0 (C07).
* The octupole term of the hyperfine shift has the factor 2I-1 (C20_octupole_fails); g_J of an LS level is multiplied by the percentage
  (C23_lande_fails).
* A level whose configuration contains `F=` cannot be looked up (C15_fails); an alias survives the deletion of its level (C16_fails);
  g_F is frozen when the Zeeman sublevels are first accessed (C25_fails). Assigning `atom.I` after population leaves the old sublevels.

Transitions
* `upper`/`lower` are fixed at construction (C27_fails); lookup by names depends on the order in which levels were added
  (C28_fails, C29_fails); integer keys always raise (C72_never); `(F, F')` returns the exchanged line when both exist (C30_fails); full
  names of hyperfine transitions are not found when the manifolds overlap (C79_overlap_raises); aliases survive deletion (C80_fails).
* `add_transition` with a reversed pair replaces the transition, and raises `KeyError` when the order contradicts the energies (C82).
  It does not bring its levels along (C46_fails); re-adding after the subtransitions were computed raises (C71_fails).
* 0 to 0 is let through by the selection rules (C31_fails); with M1 and E2 both allowed |F-F'|=2 pairs are left out (C32_fails); E2 lines
  F=0 to F'=2 have strength zero (C35_fails). Disallowed hyperfine transitions remain as edges in the hyperfine graph.
* A constructor that raises after registering poisons later enforcement (C47_poisoned).

Enforcement
* With loops not all satisfiable frequencies are met (C36_fails); a re-set frequency can be overridden by older ones (C37_fails,
  C38_fails, C41_fails); contradictory loops are not reported on fresh atoms (C40_silent_on_fresh). In an enforced tree a
  frequency takes effect only if the transition goes up as seen from the lowest level, and then breaks every other set transition at its
  upper level (C37_up_partial, C37_down). A frequency once set to 0 cannot be changed any more (C37_no_effect). A pinned level is moved when
  a set transition is found upside down at its distance (C99_fails, C37_mirror). In doubles a second enforcement may
  warn about loops that do not exist (C84_fails) and move the lowest level (C84_moves_fails).
* `load_transition_data` stores frequencies as plain floats, on which `.to` raises in enforcement.

Derived quantities and strengths
* Branching ratios divide by zero when no rates are known, and read magnitudes without converting (C43); `linked_levels` by alias raises
  (C42_fails); `populate_transitions` never creates a transition (C48_never).
* The tensor strength has 2F1+2 for 2F1+1 (C53_fails); polarisation arrays are rejected by `lru_cache` (C54_fails, C57_fails); the E2
  geometric strength keeps a term outside the product (C55_fails); other arguments are truncated by `int(2x)` (C58_fails).

* Landé factors of mixed levels use L and S of the leading component and percentages up to 100 (C90_fails); components with equal
  percentages collapse to one (C90_equal); J=0 gives nan (C90_zero). Coupled levels are weighted with amplitudes instead of squares and can
  come out negative (C94_fails).
* LS compositions lose the star of odd parity (C92_fails), are empty instead of an error for impossible states (C93_fails) and raise
  `IndexError` from L=21 on (C91_fails). A jj-coupled level with a single electron, e.g. Yb+ `(7/2,1/2)*` with `6s<1/2>`, has an empty
  composition because the parser reads spin 0 (C95_fails).
* `linked_levels` of a hyperfine level lists levels that no multipole reaches (C100_fails). Its lifetime comes out short or long by
  (2J+1)/(2F+1) (C101_fails), though its branching ratios are right (C102). The same for Zeeman levels (C107_fails), whose lifetime
  comes out long by 2J+1 (C108_fails), with the right branching ratios for dipole lines (C109). Sublevel keys given by an alias or with `mJ=` raise
  `KeyError` there, because the graph is read under the key as given.
* `E2_mel_geom` adds `k[1] + eps[0]` where a product is meant and has `6 ** 0.5 * k[1] * eps[1]` with the wrong sign and size, so turning
  the light about the axis changes the amplitudes (C103_fails, C103_two_fails); `E2_transition_strength_geom` gives y-polarised light along
  the axis no strength (C103_strength_fails) and is not the square of the amplitude (C104_fails).
* The Zeeman lines of an E2 transition between different F do not add up: the code puts F1 in place of F2 (C97_fails, C98_fails).

Containers
* `del level[key]` of the last sublevel brings it back as a new object, and raises `KeyError` before the first access (C117_fails).
* `atom.transitions[k] = t` and `del atom.transitions[k]` always raise `TypeError` (C118_fails).
* Transitions given to the constructor do not bring their levels with them, against its docstring (C119_fails).

Loading and saving
* A gap in the table's index loses rows (C50_fails); a J written as a fraction aborts the transition table (C51_fails). 
* `load_level_data` with its default columns reads no file (C113_default): the renamed frame is thrown away and the level column is
  looked up under another spelling; one unreadable cell strips the signs of all levels (C114_fails). `load_transition_data` leaves
  frequencies without unit (C112_fails) and fails without its optional dictionary (C111_none).
* `generate_full_from_dataframe` without a transition table raises `KeyError` (C115_raises).  A hyperfine file with a row that raises
  `TypeError` is applied up to that row, without notice (C115_hf_abort).
* NIST: without a limit row nothing is loaded (C85_no_limit); one second component without a term takes the second terms of all rows
  (C86_fails); a lone percentage counts as 100 (C87_fails); of a term with a space only the first word is taken (C88_fails).
* Hyperfine CSV: an alias equal to another level's name misdirects rows (C59_fails); an unreadable B or C leaves a row half applied
  (C60_halfway_fails); an unknown name with `F=` raises (C60_marker_fails). `a.b.atom` is saved as `a.b.atom.atom` (C61_fails).
  `reconstitute_conf` raises when the second configuration has fewer groups (C62_fails).

Lineshapes, diagrams, fields
* Modulation depths from 125 on overflow (C64_raises); a thermal line with zero linewidth raises (C75_raises), its window misses the line
  (C74_fails), its sigma uses sqrt(8kT/mc²). `mod_lorentzian` with the default `num_sidebands=None` raises `TypeError`.
* Schematically spaced hyperfine lines lie half a step too low and are ordered by F also for inverted structure (C106_fails,
  C106_order_fails).
* The total of a spectrum counts every curve beside its window with its end value (C126_fails). The default line shape of
  `plot_hyperfine_spectrum` and `plot_zeeman_spectrum` is a class and raises; `plot_spectrum` of one transition raises; an unknown colouring
  raises (C127). `plot_spectrum` drops its keyword arguments, and the axis says GHz for every `unit`.
* Zeeman rows of levels with I+J<1 divide by zero (C68_small_raises); hyperfine widths use 4*floor(I+J)+3 (C77_fails); colour shades leave
  the range with a gap in the keys (C69_fails).
* A zero polarisation is accepted (C70_fails); no `GaussianBeam` can be constructed (C76_beam_raises);
  one made by hand turns circular light into linear light (C120_circular_fails) and has no magnetic field for light polarised along an
  axis (C120_magnetic_zero).
* Rendering a diagram again keeps the old lines (C122_fails), arrows then end at them (C121_fails); `override_bbox` always raises
  (C121_override_raises); a Zeeman level with the hyperfine strategy is drawn without the hyperfine shift (C123_fails); brackets of
  different colours are mixed up (C124_fails).
* `t[key]` accepts keys that `key in t` denies; any use of a Zeeman transition as a container, its truth value included, raises an
  AssertionError (C128). Assigning to a fresh transition hides all its other subtransitions, and deleting the last one brings all of them
  back (C129). `save('x')` writes `x.atom`, which `load('x')` does not find (C130_plain).
* `add_transition` with a pair of levels replaces a transition between them without notice, while the pair of their names returns it
  (C132_fails); species/Yb_II_171.py passes two levels instead of a pair, which raises `TypeError` (C132_refused).
* The wavelength of a transition between levels of equal energy raises `ZeroDivisionError` (C133_raises). The unit context built in
  `__init__.py:12-17` is never added to the registry; pint's own context of that name is enabled instead, which can do the same.
* Printing `atom.levels` or `atom.transitions` while empty raises `IndexError`, printing a `MultiTerm` always raises `TypeError`, and a
  level prints with 0 sublevels until they are first asked for (C135_fails).
- C136, C137, C138: a level added to a second atom is one object with one `atom`, the last one. The first atom keeps it as a node. Its energy is moved by both, its sublevels keep the spin of the first atom (atom.py:179-185 re-adds them without recomputing), and `set_frequency` of a transition of the first atom enforces the second (atom.py:744).
- `LorentzianLineShape` adds `A_coeff` to `gamma` as it is, `ModLorentzianLineShape` divides it by 2π·10⁶ first: the same keyword means different units (C139).
- Spectra with more than ten colour values (e.g. the Zeeman lines of a level with F ≥ 5 coloured by mF) show different values in one colour (C140).
- C141: `EnergyLevel(..., parent=atom)` stores the atom in the level but never adds the level to the atom: `atom.levels` neither lists
  nor finds it, and transitions between such levels are listed by the atom but cannot be looked up.
- C142: `draw_levels` with `plot_type` 'hf' or 'z' raises NetworkXError as soon as any sublevel exists.
- C143: the Doppler width of the thermal line shapes is too large by the factor sqrt 8 (it is the width at eight times the temperature).
- C144: between its two limits the thermal line shape is a profile of area 1 and not of height `ampl`; the height jumps at the cutoff, by
  a factor of more than 50 for widths above 25 units.  (Not modelled: `sigma` is a pint quantity there, and scipy's `voigt_profile` is
  not among the functions pint supports, so this branch may raise TypeError before it gets to a value.)
- The order of `set_frequency` calls matters (C150): on a ladder of four levels, setting the outer two steps pins all four levels, and a frequency set afterwards on the middle step has no effect, without a warning. Set from one end to the other, all three are met.
- `species/Yb_II_171.py` cannot run to its end (C151): line 47 calls `add_transition` with two levels instead of a pair, so that the second is taken as a second positional argument and a `TypeError` is raised. The quadratic Zeeman coefficients of lines 51-52 are never set and no file is saved. Yb_II_173.py and Yb_II_174.py make the transition themselves and run through.
* The check "k-vector and polarization are not orthogonal" compares a computed scalar product with zero (transition_strengths.py:98, 119). In doubles the
  vectors (2, 3, 6) and (3, -6, 2), which are at right angles and both of length 7, give -2.8e-17 and so the warning (`C154_false_alarm`).
* A level that was added to two atoms takes its sublevels from the spin of the atom it was added to last, also when they are looked up by name in the other
  one (`C137_lookup`).
- A transition whose upper level lies below the lower one is turned over when it is set to the frequency it already has: with g at 0 and a at -5 and
  the transition built with a above, setting it to 5 moves a to 5 (`C155_fails`).
- Setting a frequency to zero cannot be undone: `set_frequency` releases the upper level only `if self.set_freq`, so after a zero the next call meets two
  pinned levels and only reports (`C156_fails`).
* Three calls that raise leave something behind (C158): an alias assigned to a level outside an atom is registered when the level is added
  later, `add_level(populate=True)` of a level without J lists the level, `add_transition` after the subtransitions were computed sets the edge.
- C160: the warning of `enforce_consistency` asks "Loop of fixed transitions?", but in an atom without any loop it comes whenever two pinned levels are not at the set distance, for example at every call after a frequency has been changed inside a chain (`C160_warns_without_loop`); and on a loop of levels not pinned before it does not come (`C160_fails`).
- C161: the outcome of `enforce_consistency` can depend on the hash seed of the Python process. With two levels at the same lowest energy the first one met in a set stays where it is, and in a loop of frequencies that cannot be met the order of the neighbours decides which transition is left unmet (`C161_fails`, `C161_loop`). No warning is given in either case.
- C162: within a group of set transitions the order of `set_frequency` calls decides the outcome. On the chain g-a-b at 0, 1, 2 the calls g-a 4, a-b 3 put b at 7 with both met; a-b 3, g-a 4 leave b at 4 and a-b at 0, with one warning about a loop, where there is none.
- C164: `enforce_consistency(node_or_trans)` is declared to take a level or a transition. Levels and transitions have `__len__` and `__iter__`, so the object is first tested for being empty and then unpacked as a pair of names. A level with two hyperfine levels is unpacked into `F=0`, `F=1`, found nowhere, and nothing is enforced, silently; with another number of hyperfine levels `ValueError` is raised; a Zeeman level is empty and the whole atom is enforced. The name of a level raises `ValueError` unless its group is the only one. Only the pair of names that `set_frequency` passes works in general (`C164_fails`, `C164_name_fails`).
- C165: the pins set by `enforce_consistency` stay on the levels when the transition they came from is removed (`transitions.__delitem__`) or replaced (`add_transition` between the same levels). The new transition's frequency is then not enforced; there is a warning about a loop, although there is none (`C165_fails`). Only `set_frequency` on a transition that has a frequency takes a pin away, so the new frequency takes effect if `set_frequency` is called again with it.
- C166: `0 cm^-1` cannot be converted to Hz when its magnitude is a python number: the context with the direct rule between wavenumber and frequency (`__init__.py:12-16`) is never added to the registry, so pint goes by way of the wavelength and divides by zero (`C166_fails`; for numpy numbers it is a warning only, which `load_NIST_data` suppresses). Assigning `level` of a hyperfine or Zeeman level, and `set_frequency` of a transition between them, subtract quantities before converting, so wavenumbers and wavelengths raise `DimensionalityError` there (`C166_sublevel_fails`, `C166_subtransition`).
* The README's example `a.transitions[b12, d32]` cannot work: levels are not accepted as keys (KeyError, C169), and `from_dataframe` makes no
  transitions.
* `set_frequency` stores its argument before anything checks it (atom.py:743). A number without unit raises an AttributeError in
  `enforce_consistency`, but stays; every later call for the group raises too, until the frequency is set again (C170).
* `compute_branching_ratios` adds magnitudes (atom.py:1123): after the README's `repump_935.A = Q_(120, 'kHz')` the ratios mix Hz and kHz (C171).
* An assignment to `transition.A` does not reach subtransitions that have been computed; without `A` every hyperfine line has `rel_strength` 1 (C171).
* A transition with a frequency between two sublevels raises `AttributeError` when it is added (HFLevel.level_Hz has no setter, atom.py:441-443), stays in the atom, and makes every later `enforce_consistency()` raise (C172).
* An `HFTransition` made without a parent ignores `freq` and the parities (atom.py:774-777), and its `set_frequency` raises; a `ZTransition` without a parent cannot be made (C173).
* `level[key] = sublevel` (atom.py:200-202) changes the parent of the sublevel and not its manifold (atom.py:67), so the sublevel sits at the energy of the one level with the constants of the other; assigned to a level whose sublevels have not been computed, it keeps them from ever being computed (C174).
- C175: `add_transition((E1, E2), freq=5)` raises AttributeError from `enforce_consistency` (`atom.py`), but by then the transition is in the graph; every later `add_transition` with a frequency elsewhere in the atom raises too, although nothing is wrong with it (`C175_fails`, `C175_poisoned`). Closing a loop of set transitions, the bad frequency goes unnoticed or not depending on the order of the neighbours (`C175_loop`).
- C176: deleting a level and adding it again loses its transitions without a word (`remove_node` drops the edges, `C176_fails`), and `add_level` takes back an alias that belongs to another level by now (`C176_alias`). Adding a transition before its level leaves a node without a level (`C176_level_last`).
* `add_level(level, populate_sublevels=True)` for a level whose sublevels exist replaces them by new ones, losing quadratic Zeeman shifts (C178_fails); adding a level again takes its alias back from the level that has it now (C178_alias).
* `EnergyLevel(parent=x)` with `x` not an atom means to warn, but the warning reads `self.name`, which is set later (atom.py:67-69, 272-274), so it raises `AttributeError` (not modelled).
* Setting a transition to less than the splitting of its levels makes sublevels cross; the lines concerned are absolute values and are reflected, without a warning (C179_fails).
* An alias that spells a sublevel of another level hides that sublevel from `atom.levels[...]` (C180_fails).
* Assigning the energy of a hyperfine level lets the hyperfine constants reach the energy of the level (C181_fails), and assigning that of a Zeeman level lets the Lande factor reach it (C182_fails); without such assignments constants, factors and rates act on sublevels and lines only.
- C186: `E_1`, `E_2` may be given in either order, except between levels of equal energy: there the level given first becomes the upper one, and a set frequency then moves a different level (atom.py:554-570). The strength of an E2 Zeeman line between different F also depends on the order, because F of the first end is used twice (C35).

## Testing the theorems against wrong programs

`seeded/LOG.jsonl` has one line per edit of a model definition made in a scratch copy: the definition, the edit, the claim it breaks, the
theorems whose proofs failed, and the theorems tightened because none did.

Limits of this log:

- Most builds were stopped at the first declarations that failed. In over 500 lines these are helper lemmas only. Such a line shows that a
  proof broke, not that the statement of the property excludes the edit; a correct program written differently could break the same lemma.
- For about 500 generated edits the claim was inferred from the theorems that depend on the edited definition. It was not checked that
  the edit makes that claim false. These lines say so in their note.
- Edits that did not compile are not in the log.
- Two survivors are open: `readLines` (`∧` for `∨` in the last line) and `cached` (kind of exception). They were not analysed.
- Five edits of Model/Rates.lean were at first recorded as survivors and left out. Run again, three fail C171 theorems or their lemmas
  and two do not compile, so the first run presumably did not build that module. The three are in the log with the result of the second run.
