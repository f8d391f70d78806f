{"id": "C01", "title": "Half-integer text round trip", "statement": "For every half-integer h (negative ones included) frac_to_float(float_to_frac(h)) == h; two different half-integers never print alike; and the printed text contains neither a space nor '='.", "quantifier": "all half-integers", "why_tests_cant": "infinitely many quantum numbers, and injectivity is a statement about all pairs", "anchors": ["atomtoolkit/util.py:frac_to_float", "atomtoolkit/util.py:float_to_frac"]}
{"id": "C02", "title": "Orbital letters are a bijection", "statement": "let_to_l and l_to_let are mutually inverse between 0..20 and the 21 letters SPDFGHIKLMNOQRTUVWXYZ; let_to_l accepts exactly those letters in either case and '' (None), and raises ValueError on every other string; l_to_let raises IndexError on every integer outside the table, so no integer outside 0..20 is ever given a letter.", "quantifier": "all strings and all integers", "why_tests_cant": "the rejected inputs are an infinite set", "anchors": ["atomtoolkit/util.py:let_to_l", "atomtoolkit/util.py:l_to_let"]}
{"id": "C03", "title": "Coupling classification", "statement": "get_term_coupling never raises and classifies every term text: LK or JK exactly when it contains '[', (LK exactly when moreover it starts with an orbital letter), JJ exactly when it contains '(' but no '[', LS when neither and at least two characters long, otherwise unknown.", "quantifier": "all term strings", "why_tests_cant": "all strings", "anchors": ["atomtoolkit/util.py:get_term_coupling"]}
{"id": "C04", "title": "LS terms parse to their quantum numbers", "statement": "For every multiplicity n, orbital letter X, and optional parity star, a Term written '{n}{X}' or '{n}{X}*' has coupling LS, l equal to the orbital number of X, s=(n-1)/2, and all other quantum numbers None; a term in which two such groups stand raises ValueError.", "quantifier": "all multiplicities (any number of digits), all letters, all configurations", "why_tests_cant": "unbounded digit strings through a backtracking regex", "anchors": ["atomtoolkit/util.py:parse_LS_term", "atomtoolkit/util.py:get_quantum_nums", "atomtoolkit/term.py:Term"]}
{"id": "C05", "title": "JK terms parse to their quantum numbers", "statement": "For every core '({n}{X}[*]<{jc}>)' in the configuration, followed by an outer electron whose letter ends the configuration, and every term '{m}[{K}][*]', the parsed lc,sc,jc come from the core, lo from the final letter, so=(m-1)/2 and k=K.", "quantifier": "all cores, outer electrons, K and multiplicities of the NIST shape", "why_tests_cant": "unbounded strings through a backtracking regex", "anchors": ["atomtoolkit/util.py:parse_JK_term"]}
{"id": "C06", "title": "LK terms parse to their quantum numbers", "statement": "For every configuration with one ancestor '({n}{X}[*])' and a trailing outer electron letter, and every term '{L}[*] {m}[{K}][*]', the parsed lc,sc come from the ancestor, lo from the last letter, l from {L}, so=(m-1)/2 and k=K.", "quantifier": "all such strings", "why_tests_cant": "unbounded strings through a backtracking regex", "anchors": ["atomtoolkit/util.py:parse_LK_term"]}
{"id": "C07", "title": "JJ terms parse to their quantum numbers", "statement": "For every configuration holding exactly two '({n}{X}[*]<{j}>)' groups, the parsed (lc,sc,jc) and (lo,so,jo) are those of the first and second group in order; when the configuration has no such group they are taken from the term text instead.", "quantifier": "all such strings", "why_tests_cant": "unbounded strings through a backtracking regex", "anchors": ["atomtoolkit/util.py:parse_JJ_term"]}
{"id": "C08", "title": "Parity is the star", "statement": "Term.parity is -1 exactly when the term text contains '*', and 1 otherwise, and no F/mF copy changes it.", "quantifier": "all terms and all copies", "why_tests_cant": "all strings and copy histories", "anchors": ["atomtoolkit/term.py:Term"]}
{"id": "C09", "title": "Level names identify levels", "statement": "Two terms with NIST-shaped configuration (no space) and term text (no '=', not ending in a digit, '/' or '-') and half-integer J (and F, mF where present) that have the same name have the same configuration, term text, J, F and mF.", "quantifier": "all pairs of terms", "why_tests_cant": "injectivity over all pairs", "anchors": ["atomtoolkit/term.py:Term.name"]}
{"id": "C10", "title": "Sub-term copies keep the quantum numbers", "statement": "make_term_copy(F, mF) keeps configuration, term text, J, percentage and every parsed quantum number; it stores the requested mF, and the requested F unless the term already has an F, which is then kept. A term made without a percentage has 100.", "quantifier": "all terms, F, mF and all chains of copies", "why_tests_cant": "all histories of copying", "anchors": ["atomtoolkit/term.py:Term.make_term_copy", "atomtoolkit/term.py:MultiTerm.make_term_copy"]}
{"id": "C11", "title": "Term equality tells terms apart", "statement": "Term equality is reflexive, symmetric and transitive, and two terms that differ in J, F or mF are not equal.", "quantifier": "all pairs/triples of terms", "why_tests_cant": "all pairs", "anchors": ["atomtoolkit/term.py:Term.__eq__"]}
{"id": "C12", "title": "MultiTerm leads with its largest component", "statement": "For every non-empty list of components a MultiTerm keeps exactly those components, sorted by decreasing percentage with ties in the given order, and every Term attribute read from it is that of the leading component; equality of MultiTerms is symmetric.", "quantifier": "all component lists", "why_tests_cant": "all lists and orders", "anchors": ["atomtoolkit/term.py:MultiTerm"]}
{"id": "C13", "title": "Hyperfine multiplet is exactly |J-I|..J+I", "statement": "A level with angular momentum J in an atom of spin I has exactly one hyperfine sublevel for every F with |J-I| <= F <= J+I and F-J-I an integer, no others, 2*min(I,J)+1 in all, each stored under the key 'F=<F>'.", "quantifier": "all half-integers I, J >= 0", "why_tests_cant": "all spins", "anchors": ["atomtoolkit/atom.py:EnergyLevel.populate_sublevels"]}
{"id": "C14", "title": "Zeeman manifold is exactly -F..F", "statement": "A hyperfine level F has exactly the 2F+1 Zeeman sublevels mF=-F..F, each under 'mF=<mF>', and a fine-structure level has (2I+1)(2J+1) Zeeman states in all.", "quantifier": "all half-integers I, J, F", "why_tests_cant": "all spins", "anchors": ["atomtoolkit/atom.py:HFLevel.populate_sublevels"]}
{"id": "C15", "title": "Every level can be looked up by its own name, all access paths agree", "statement": "In any atom whose aliases do not clash with the text, atom.levels[x.name] is x for every fine-structure level, hyperfine sublevel and Zeeman sublevel x of the atom, and equals step-by-step indexing atom.levels[name]['F=..']['mF=..']; when I=0 the 'mJ=' spelling returns the same sublevel.", "quantifier": "all atoms, levels and sublevels", "why_tests_cant": "all names through string splitting", "anchors": ["atomtoolkit/atom_helpers.py:LevelStructure.__getitem__", "atomtoolkit/atom.py:BaseLevel.__getitem__"]}
{"id": "C16", "title": "Aliases", "statement": "After alias assignment (constructor alias, add_level alias=, item assignment or .alias=) atom.levels[alias] is that level, whatever the history, until the alias is reassigned; other aliases keep their meaning; deleting a level makes its alias stop resolving.", "quantifier": "all histories of alias operations", "why_tests_cant": "histories", "anchors": ["atomtoolkit/atom_helpers.py:LevelStructure", "atomtoolkit/atom.py:BaseLevel.alias", "atomtoolkit/atom.py:Atom.add_level"]}
{"id": "C17", "title": "Integer indexing is energy order", "statement": "atom.levels[n] for 0<=n<len is the n-th lowest level: listing them for n=0..len-1 gives every level exactly once in non-decreasing energy; atom.levels[-1] is a highest one; n outside -len..len-1 raises IndexError.", "quantifier": "all atoms and all indices", "why_tests_cant": "all level sets", "anchors": ["atomtoolkit/atom_helpers.py:LevelStructure.__getitem__"]}
{"id": "C18", "title": "Hyperfine shift is always defined", "statement": "For every half-integer I, J >= 0 and every F the hyperfine shift is computed without dividing by zero; it is 0 when I=0 or J=0; the B term needs I,J>=1 and the C term I,J>=3/2 to contribute.", "quantifier": "all half-integers I, J", "why_tests_cant": "all spins; division guards", "anchors": ["atomtoolkit/atom.py:HFLevel.compute_hf_shift"]}
{"id": "C19", "title": "Hyperfine structure preserves the centroid", "statement": "For all hyperfine constants A, B, C the degeneracy-weighted sum over F of (2F+1)*shift(F) is exactly 0, so the weighted mean of the hyperfine levels is the level's own energy.", "quantifier": "all half-integers I, J and all A, B, C", "why_tests_cant": "unbounded sum identity", "anchors": ["atomtoolkit/atom.py:HFLevel.compute_hf_shift"]}
{"id": "C20", "title": "Stretched-state normalisation of A, B, C", "statement": "In the stretched state F=I+J the shift is A*I*J + B/4 + C (with the B term present from I,J>=1 and the C term from I,J>=3/2), as in the standard definition of the hyperfine constants.", "quantifier": "all half-integers I, J and all A, B, C", "why_tests_cant": "identity over all spins", "anchors": ["atomtoolkit/atom.py:HFLevel.compute_hf_shift"]}
{"id": "C21", "title": "Linear Zeeman structure", "statement": "At B=0 every Zeeman sublevel sits on its hyperfine level; without a quadratic coefficient the shifts are odd in mF, equally spaced, scale linearly with B and sum to zero over a manifold.", "quantifier": "all F, gF, B", "why_tests_cant": "all spins and fields", "anchors": ["atomtoolkit/atom.py:ZLevel.shift_Hz"]}
{"id": "C22", "title": "g_F of hyperfine levels", "statement": "g_F is 0 for F=0 and gJ*(F(F+1)+J(J+1)-I(I+1))/(2F(F+1)) otherwise, without division by zero; for I=0 it equals gJ, and in the stretched state F=I+J it is gJ*J/(I+J).", "quantifier": "all half-integers I, J, F", "why_tests_cant": "all spins", "anchors": ["atomtoolkit/atom.py:HFLevel.compute_gF"]}
{"id": "C23", "title": "Lande factor of an LS level", "statement": "A level built from a single LS term with no explicit lande gets g_J = 1 + 1.0023*(J(J+1)+S(S+1)-L(L+1))/(2J(J+1)) for J>0.", "quantifier": "all L, S, J", "why_tests_cant": "all quantum numbers", "anchors": ["atomtoolkit/atom.py:EnergyLevel.compute_gJ"]}
{"id": "C24", "title": "Setting a sublevel's energy moves its manifold rigidly", "statement": "After assigning .level of a hyperfine or Zeeman sublevel, that sublevel reads back the assigned value, the fine-structure level and all its other sublevels have moved by the same amount, and no other level of the atom moves.", "quantifier": "all atoms, sublevels and values", "why_tests_cant": "all states", "anchors": ["atomtoolkit/atom.py:HFLevel.level", "atomtoolkit/atom.py:BaseLevel.level"]}
{"id": "C25", "title": "Sublevel energies follow the current constants", "statement": "At any time a Zeeman sublevel's energy is level + hyperfine shift + Zeeman shift computed from the current A, B, C, g_J, field and spin, whether the sublevels were first accessed before or after those were changed.", "quantifier": "all histories interleaving accesses and assignments", "why_tests_cant": "histories of lazy population", "anchors": ["atomtoolkit/atom.py:lazy_compute_sublevels", "atomtoolkit/atom.py:HFLevel.shift_Hz", "atomtoolkit/atom.py:ZLevel.shift_Hz"]}
{"id": "C26", "title": "Transition frequency is the level difference", "statement": "In every state a transition's freq is |E_1 - E_2|, non-negative, independent of the order of its levels, and zero exactly when the levels coincide.", "quantifier": "all states", "why_tests_cant": "all states", "anchors": ["atomtoolkit/atom.py:BaseTransition.freq_Hz"]}
{"id": "C27", "title": "Upper and lower are the right way round", "statement": "In every reachable state E_upper of a transition is not below its E_lower, and {E_upper,E_lower}={E_1,E_2}.", "quantifier": "all histories", "why_tests_cant": "histories that move levels", "anchors": ["atomtoolkit/atom.py:BaseTransition.__init__"]}
{"id": "C28", "title": "Transition lookup ignores key order", "statement": "atom.transitions[(a,b)] and atom.transitions[(b,a)] return the same transition.", "quantifier": "all atoms and pairs of names", "why_tests_cant": "all states", "anchors": ["atomtoolkit/atom_helpers.py:TransitionStructure.__getitem__"]}
{"id": "C29", "title": "Every transition of the atom can be looked up", "statement": "If a transition between levels a and b has been added to the atom and both levels are in it, atom.transitions[(a,b)] returns it, and whatever transition is returned connects exactly the levels named.", "quantifier": "all histories of adding levels and transitions", "why_tests_cant": "depends on graph insertion order and energies", "anchors": ["atomtoolkit/atom_helpers.py:TransitionStructure.__getitem__", "atomtoolkit/atom.py:BaseTransition.add_to_atom"]}
{"id": "C30", "title": "Subtransition lookup returns the named pair", "statement": "transition[(x,y)], with x the short name of a sublevel of the lower level and y of the upper level, returns the subtransition between exactly these sublevels whenever it exists.", "quantifier": "all transitions and sublevel pairs", "why_tests_cant": "depends on which pairs coexist", "anchors": ["atomtoolkit/atom.py:BaseTransition.__getitem__", "atomtoolkit/atom.py:Transition.populate_subtransitions"]}
{"id": "C31", "title": "Fine-structure selection rules", "statement": "allowed_types is (E1,M1,E2) with E1 exactly when |dJ|<=1 and parity changes, M1 when |dJ|<=1 and parity is kept, E2 when |dJ|<=2, parity is kept and the levels differ; it is symmetric in the two levels, E1 excludes M1 and E2; and J=0 to J=0 is never allowed.", "quantifier": "all pairs of levels", "why_tests_cant": "all J and parities", "anchors": ["atomtoolkit/atom.py:Transition.transition_allowed"]}
{"id": "C32", "title": "Hyperfine subtransitions are exactly the allowed pairs", "statement": "The subtransitions of an allowed transition connect exactly the pairs (F,F') for which the multipole's 6j symbol does not vanish; in particular each obeys |F-F'| <= k <= F+F' and inherits only multipoles its parent has.", "quantifier": "all I, J, J' and parities", "why_tests_cant": "all spins", "anchors": ["atomtoolkit/atom.py:Transition.populate_subtransitions", "atomtoolkit/atom.py:HFTransition.transition_allowed", "atomtoolkit/atom.py:BaseTransition._compute_sublevel_pairs"]}
{"id": "C33", "title": "Zeeman subtransitions obey the m selection rule", "statement": "Every Zeeman subtransition of a hyperfine transition has |mF-mF'| <= 1 when only dipole types are allowed, <= 2 for quadrupole, and connects sublevels with non-vanishing 3j symbol.", "quantifier": "all F, F'", "why_tests_cant": "all spins", "anchors": ["atomtoolkit/atom.py:HFTransition.populate_subtransitions", "atomtoolkit/atom.py:ZTransition.transition_allowed"]}
{"id": "C34", "title": "Hyperfine line strengths", "statement": "The strength of a hyperfine subtransition is non-negative, vanishes when the multipole is forbidden, does not depend on the order of the two levels, and over all lower F' sums (for the dipole types) to (2F+1)/(2J+1) of the parent.", "quantifier": "all I, J, J', F", "why_tests_cant": "sum rule over all spins", "anchors": ["atomtoolkit/atom.py:HFTransition.compute_linewidth"]}
{"id": "C35", "title": "Zeeman line strengths", "statement": "The strength of a Zeeman subtransition is non-negative, does not depend on the order of its two levels, and vanishes exactly when the transition is forbidden, for dipole and quadrupole types alike.", "quantifier": "all F, F', mF, mF'", "why_tests_cant": "all spins", "anchors": ["atomtoolkit/atom.py:ZTransition.compute_linewidth"]}
{"id": "C36", "title": "Jointly satisfiable frequencies are all enforced", "statement": "If the set frequencies of a group of connected transitions can be met by some assignment of energies, then after enforcing consistency on levels not pinned earlier, every set transition of the group has exactly its set frequency and the lowest level of the group has not moved.", "quantifier": "all atoms (any graph, any iteration order of the graph library)", "why_tests_cant": "all graphs and traversal orders", "anchors": ["atomtoolkit/atom.py:Atom.enforce_consistency"]}
{"id": "C37", "title": "Setting a frequency takes effect", "statement": "After transition.set_frequency(f), f>=0, the transition's freq reads f.", "quantifier": "all atoms and histories", "why_tests_cant": "histories", "anchors": ["atomtoolkit/atom.py:Transition.set_frequency", "atomtoolkit/atom.py:Atom.enforce_consistency"]}
{"id": "C38", "title": "Setting a frequency preserves the other set frequencies", "statement": "If all set transitions of a loop-free atom have their set frequencies, then after set_frequency on any one of them all set transitions again have their set frequencies.", "quantifier": "all loop-free atoms and histories of set_frequency calls", "why_tests_cant": "histories", "anchors": ["atomtoolkit/atom.py:Transition.set_frequency", "atomtoolkit/atom.py:Atom.enforce_consistency"]}
{"id": "C39", "title": "Enforcement moves only the affected group", "statement": "set_frequency on a transition changes the energy only of levels connected to it through transitions with set frequencies, and changes no transition's set frequency but its own.", "quantifier": "all atoms and histories", "why_tests_cant": "all graphs", "anchors": ["atomtoolkit/atom.py:Atom.enforce_consistency", "atomtoolkit/atom.py:Transition.set_frequency"]}
{"id": "C40", "title": "Contradictory loops are reported", "statement": "If the set frequencies around a loop of transitions contradict each other, enforcing consistency warns.", "quantifier": "all atoms with loops", "why_tests_cant": "all graphs", "anchors": ["atomtoolkit/atom.py:Atom.enforce_consistency"]}
{"id": "C41", "title": "Setting a subtransition's frequency shifts the parent", "statement": "After set_frequency(f) on a hyperfine or Zeeman subtransition, the subtransition's freq reads f and its siblings move by the same amount.", "quantifier": "all atoms and sublevels", "why_tests_cant": "all states", "anchors": ["atomtoolkit/atom.py:HFTransition.set_frequency", "atomtoolkit/atom.py:ZTransition.set_frequency"]}
{"id": "C42", "title": "linked_levels is the neighbourhood", "statement": "linked_levels(name) contains exactly the other levels that share a transition with the named level, with that transition; b is linked to a exactly when a is linked to b; a level is never linked to itself; asking by alias works like asking by name.", "quantifier": "all atoms and histories", "why_tests_cant": "all graphs", "anchors": ["atomtoolkit/atom.py:Atom.linked_levels"]}
{"id": "C43", "title": "Branching ratios form a distribution", "statement": "compute_branching_ratios(level) lists exactly the levels reached by downward transitions; the ratios are non-negative and sum to 1 when the rates are not all zero, do not depend on the units in which the A coefficients were given, and a missing A coefficient raises ValueError.", "quantifier": "all atoms", "why_tests_cant": "all sets of rates and units", "anchors": ["atomtoolkit/atom.py:Atom.compute_branching_ratios"]}
{"id": "C44", "title": "State lifetime", "statement": "state_lifetime is infinite exactly when no downward transition with non-zero rate exists, otherwise lifetime times the summed A coefficients is 2*pi, and adding a decay channel never lengthens it.", "quantifier": "all atoms", "why_tests_cant": "all sets of rates", "anchors": ["atomtoolkit/atom.py:Atom.state_lifetime"]}
{"id": "C45", "title": "Level container bookkeeping", "statement": "After any sequence of add_level / del on an atom's levels, the container lists exactly the names added and not deleted since, each once, each mapped to the level object added last under that name; deleting an absent name raises.", "quantifier": "all operation sequences", "why_tests_cant": "histories", "anchors": ["atomtoolkit/atom.py:Atom.add_level", "atomtoolkit/atom_helpers.py:LevelStructure"]}
{"id": "C46", "title": "add_transition brings its levels along", "statement": "After add_transition(t), both levels of t are in atom.levels.", "quantifier": "all atoms and transitions", "why_tests_cant": "all states", "anchors": ["atomtoolkit/atom.py:Atom.add_transition"]}
{"id": "C47", "title": "A failed transition construction leaves the atom usable", "statement": "If constructing a Transition raises, the atom's transitions are as before and later frequency settings work.", "quantifier": "all atoms and all failing arguments (crash points inside the constructor)", "why_tests_cant": "crash points", "anchors": ["atomtoolkit/atom.py:BaseTransition.__init__"]}
{"id": "C48", "title": "populate_transitions adds the allowed transitions", "statement": "populate_transitions(allowed) returns normally and afterwards every pair of levels with an allowed transition type, and no other pair, is connected.", "quantifier": "all atoms", "why_tests_cant": "all level sets", "anchors": ["atomtoolkit/atom.py:Atom.populate_transitions"]}
{"id": "C49", "title": "populate_internal_transitions adds exactly the self transitions", "statement": "It adds for every level exactly one transition from the level to itself, and changes no energy, no other transition and no set of linked levels.", "quantifier": "all atoms", "why_tests_cant": "all states", "anchors": ["atomtoolkit/atom.py:Atom.populate_internal_transitions"]}
{"id": "C50", "title": "Loading a level table", "statement": "Atom.from_dataframe adds exactly the levels of the first num_levels rows that exist (all rows by default); asking for more rows than exist is harmless; each level has the energy, J and Lande factor of its row.", "quantifier": "all tables", "why_tests_cant": "all tables", "anchors": ["atomtoolkit/atom.py:Atom.from_dataframe", "atomtoolkit/atom.py:EnergyLevel.from_dataframe"]}
{"id": "C51", "title": "Loading a transition table", "statement": "populate_transitions_df adds a transition for every row whose two levels are in the atom, and rows naming unknown levels are skipped without effect.", "quantifier": "all tables and atoms", "why_tests_cant": "all tables", "anchors": ["atomtoolkit/atom.py:Atom.populate_transitions_df"]}
{"id": "C52", "title": "Tensor strengths are squared matrix elements", "statement": "tkq_transition_strength equals tkq_mel squared, is never negative, is zero unless M1 = M0 + q, and is zero when the 6j symbol vanishes.", "quantifier": "all quantum numbers", "why_tests_cant": "all spins", "anchors": ["atomtoolkit/transition_strengths.py:tkq_transition_strength", "atomtoolkit/transition_strengths.py:tkq_mel"]}
{"id": "C53", "title": "Tensor strengths are symmetric in the two states", "statement": "Exchanging the two states (and the sign of q) does not change tkq_transition_strength.", "quantifier": "all quantum numbers", "why_tests_cant": "all spins", "anchors": ["atomtoolkit/transition_strengths.py:tkq_transition_strength"]}
{"id": "C54", "title": "E1/M1 geometry", "statement": "For every real non-zero polarisation vector, E1_transition_strength_geom equals |E1_mel_geom|^2, does not depend on the vector's length, and its mean over three orthogonal polarisations along the axes equals E1_transition_strength_avg; the M1 functions agree with the E1 ones.", "quantifier": "all polarisations and quantum numbers", "why_tests_cant": "all real vectors", "anchors": ["atomtoolkit/transition_strengths.py:E1_transition_strength_geom", "atomtoolkit/transition_strengths.py:E1_mel_geom", "atomtoolkit/transition_strengths.py:E1_transition_strength_avg"]}
{"id": "C55", "title": "E2 geometry", "statement": "E2_transition_strength_avg is a weighted mean of the five q-components (weights sum to 1), and E2_transition_strength_geom vanishes whenever all five tensor strengths vanish, for every polarisation and wave vector.", "quantifier": "all polarisations, wave vectors and quantum numbers", "why_tests_cant": "all real vectors", "anchors": ["atomtoolkit/transition_strengths.py:E2_transition_strength_geom", "atomtoolkit/transition_strengths.py:E2_transition_strength_avg"]}
{"id": "C56", "title": "Coupling conversion enumerates every LS term once", "statement": "JJ_to_LS and JK_to_LS return one entry for every pair (L,S) with |lc-lo|<=L<=lc+lo and |sc-so|<=S<=sc+so in unit steps, each exactly once, L-major; LK_to_LS one for every S.", "quantifier": "all lc, lo, sc, so", "why_tests_cant": "all spins", "anchors": ["atomtoolkit/transition_strengths.py:JJ_to_LS", "atomtoolkit/transition_strengths.py:JK_to_LS", "atomtoolkit/transition_strengths.py:LK_to_LS"]}
{"id": "C57", "title": "Memoisation is invisible", "statement": "The cached wigner and strength functions return, in every sequence of calls, exactly what the uncached function returns for those arguments; a repeated call gives the same result.", "quantifier": "all call histories", "why_tests_cant": "histories", "anchors": ["atomtoolkit/wigner.py:wigner3j", "atomtoolkit/wigner.py:wigner6j", "atomtoolkit/transition_strengths.py:tkq_transition_strength"]}
{"id": "C58", "title": "Wigner symbols vanish outside the selection rules", "statement": "wigner3j is zero unless the m's sum to zero and the j's satisfy the triangle rule, wigner6j unless all four triads satisfy the triangle rule; both squared values are invariant under column exchange, and the wrapper returns 0 instead of raising for arguments the backend rejects.", "quantifier": "all arguments", "why_tests_cant": "all spins", "anchors": ["atomtoolkit/wigner.py:wignerPicker", "atomtoolkit/wigner.py:wigner3j", "atomtoolkit/wigner.py:wigner6j"]}
{"id": "C59", "title": "Hyperfine CSV round trip", "statement": "Writing an atom's hyperfine constants with generate_hf_csv and reading them back with apply_hf_csv leaves every level's constants as they were (zero A values being replaced by def_A), for every level name, including names with commas and quotes.", "quantifier": "all atoms and names", "why_tests_cant": "all strings through CSV quoting", "anchors": ["atomtoolkit/IO.py:generate_hf_csv", "atomtoolkit/IO.py:apply_hf_csv"]}
{"id": "C60", "title": "apply_hf_csv touches only the named levels", "statement": "Every row naming a level of the atom sets that level's three constants to the row's values, rows naming unknown levels change nothing, the last row for a name wins, and no energies or other levels change; if a row is malformed, exactly the rows before it have been applied. This holds for every file that writes the rows: fields in quotes or not, any line ends, with or without one after the last row.", "quantifier": "all files and crash points", "why_tests_cant": "crash points and row orders", "anchors": ["atomtoolkit/IO.py:apply_hf_csv"]}
{"id": "C61", "title": "Saved file names", "statement": "Atom.save writes to a name ending in '.atom', adding the extension exactly when it is missing, so saving under the resulting name again does not change it.", "quantifier": "all file names", "why_tests_cant": "all strings", "anchors": ["atomtoolkit/atom.py:Atom.save"]}
{"id": "C62", "title": "Second configurations are reconstituted", "statement": "reconstitute_conf(c0,c1) replaces the parenthesised groups of c0 by those of c1, keeping all text outside parentheses, when c1 consists of adjacent groups; when there is text between the two groups of c1, it puts the text before the first group of c0 in front of c1.", "quantifier": "all configurations of that shape", "why_tests_cant": "all strings", "anchors": ["atomtoolkit/IO.py:_load_NIST_data.reconstitute_conf"]}
{"id": "C63", "title": "Lorentzian profile", "statement": "The Lorentzian equals its amplitude at the centre, half of it exactly at +-gamma/2, is symmetric about the centre, positive, bounded by the amplitude and strictly decreasing away from the centre.", "quantifier": "all real x, x0, gamma, amplitude", "why_tests_cant": "all reals", "anchors": ["atomtoolkit/render/lineshapes.py:lorentzian", "atomtoolkit/render/lineshapes.py:LorentzianLineShape"]}
{"id": "C64", "title": "Sideband count", "statement": "Constructing a modulated lineshape terminates for every modulation depth, and the number of sidebands chosen is the least n with (depth/2)^n <= 0.01*n!.", "quantifier": "all real depths", "why_tests_cant": "termination over the reals", "anchors": ["atomtoolkit/render/lineshapes.py:ModLorentzianLineShape.__init__"]}
{"id": "C65", "title": "Modulated lineshape symmetry", "statement": "The modulated Lorentzian is symmetric about its centre, non-negative for non-negative amplitude, and reduces to the plain Lorentzian scaled by J0^2 with no sidebands; its width is gamma plus A_coeff/(2 pi) in MHz.", "quantifier": "all reals and sideband counts", "why_tests_cant": "all reals, unbounded sums", "anchors": ["atomtoolkit/render/lineshapes.py:ModLorentzianLineShape.shape_func", "atomtoolkit/render/lineshapes.py:mod_lorentzian"]}
{"id": "C66", "title": "Line plotting window", "statement": "LineShape.compute returns exactly num_points equally spaced abscissae from x0-width to x0+width, symmetric about x0, and one ordinate per abscissa.", "quantifier": "all x0, widths, point counts", "why_tests_cant": "all reals", "anchors": ["atomtoolkit/render/lineshapes.py:LineShape.compute"]}
{"id": "C67", "title": "Bounding boxes enclose their points", "statement": "Grotrian.bbox(points, pad) with pad>=0 contains every given point, and every anchor 1..9 of a box lies inside the box, at the documented corner, edge or centre.", "quantifier": "all point lists", "why_tests_cant": "all lists of reals", "anchors": ["atomtoolkit/render/grotrian.py:Grotrian.bbox", "atomtoolkit/render/grotrian.py:Grotrian.compute_arrow"]}
{"id": "C68", "title": "Zeeman sublevels are drawn without overlap", "statement": "For every level the Zeeman strategy draws the sublevels of one hyperfine level as disjoint segments in order of mF without raising, the outermost hyperfine level spanning exactly the requested width.", "quantifier": "all levels and spins", "why_tests_cant": "all spins", "anchors": ["atomtoolkit/render/grotrian.py:Grotrian._compute_zlevel_row", "atomtoolkit/render/grotrian.py:Grotrian._process_level_kwargs"]}
{"id": "C69", "title": "Colour shades stay in range", "statement": "Every lightness computed by color_table_from_property lies between 0.2 and 0.8; with no items the table is empty.", "quantifier": "all sets of transitions", "why_tests_cant": "all multisets", "anchors": ["atomtoolkit/render/spectra.py:color_table_from_property"]}
{"id": "C70", "title": "Light field polarisation is a unit vector", "statement": "Every LightField that can be constructed has a polarisation of unit length (within 1e-6).", "quantifier": "all vectors", "why_tests_cant": "all vectors", "anchors": ["atomtoolkit/environment.py:LightField.__init__"]}
{"id": "C71", "title": "Re-adding a transition is harmless", "statement": "add_transition of a transition already in the atom, at any time in its life, changes nothing and returns normally.", "quantifier": "all histories", "why_tests_cant": "histories of lazy population", "anchors": ["atomtoolkit/atom.py:BaseTransition.add_to_atom", "atomtoolkit/atom.py:Atom.add_transition"]}
{"id": "C72", "title": "Item access by energy rank for transitions", "statement": "atom.transitions[(n,m)] with integers returns the transition between the n-th and m-th lowest levels.", "quantifier": "all atoms", "why_tests_cant": "all atoms", "anchors": ["atomtoolkit/atom_helpers.py:TransitionStructure.__getitem__"]}
{"id": "C73", "title": "Gaussian profile", "statement": "The Gaussian equals its amplitude at the centre, half of it exactly at +-sqrt(2 ln 2)*sigma, is symmetric, positive, bounded by the amplitude and strictly decreasing away from the centre; the stored fwhm agrees with the distance of the half-height points to one part in ten thousand.", "quantifier": "all real x, x0, sigma, amplitude", "why_tests_cant": "all reals", "anchors": ["atomtoolkit/render/lineshapes.py:gaussian", "atomtoolkit/render/lineshapes.py:GaussianLineShape"]}
{"id": "C74", "title": "The plotting window covers the line", "statement": "The window chosen by compute reaches 'padding' widths of the drawn profile to either side of the line and of every sideband.", "quantifier": "all line shapes and positions", "why_tests_cant": "all reals", "anchors": ["atomtoolkit/render/lineshapes.py:LineShape.compute", "atomtoolkit/render/lineshapes.py:ThermalGaussianLineShape.width_func"]}
{"id": "C75", "title": "Thermal lines can be drawn", "statement": "ThermalLineShape.shape_func returns a number for every positive temperature, mass and frequency and every linewidth >= 0, including the default laser linewidth.", "quantifier": "all reals", "why_tests_cant": "all reals", "anchors": ["atomtoolkit/render/lineshapes.py:ThermalLineShape.shape_func", "atomtoolkit/render/spectra.py:plot_spectrum"]}
{"id": "C76", "title": "Light fields and beams carry their intensity", "statement": "The electric field of a LightField of unit polarisation satisfies c*eps0/2*|E|^2 = intensity, its magnetic field is orthogonal to the electric field and to k and has the size |E|/c when k is a unit vector orthogonal to the polarisation, and a GaussianBeam of power P and waist w0 can be constructed and has intensity 2P/(pi w0^2).", "quantifier": "all reals and complex polarisations", "why_tests_cant": "all reals", "anchors": ["atomtoolkit/environment.py:LightField.E", "atomtoolkit/environment.py:GaussianBeam.__init__"]}
{"id": "C77", "title": "Hyperfine levels are drawn with documented widths", "statement": "The hyperfine strategy draws each hyperfine level of a level exactly by one shown row; with sublevel_width='degeneracy' its length is W*(2F+1)/(2(I+J)+1), so the outermost level has the requested width, and with 'schematic' and no offset every length is W.", "quantifier": "all levels and spins", "why_tests_cant": "all spins", "anchors": ["atomtoolkit/render/grotrian.py:Grotrian._compute_hflevel_row", "atomtoolkit/render/grotrian.py:Grotrian._hf_level_table"]}
{"id": "C78", "title": "Boxes of parent levels enclose the lines of their sublevels", "statement": "In every table the Zeeman or hyperfine strategy returns, the box of a hyperfine row contains the ends of the lines of its Zeeman sublevels and the box of the level's row contains the ends of all other lines. The box of a hyperfine or whole level leaves a margin of 0.05 beside its lines and of 5 % of their distance above and below.", "quantifier": "all levels, spins and constants", "why_tests_cant": "all reals and spins", "anchors": ["atomtoolkit/render/grotrian.py:Grotrian._zeeman_level_table", "atomtoolkit/render/grotrian.py:Grotrian._hf_level_table"]}
{"id": "C79", "title": "Transitions can be looked up by full sublevel names", "statement": "atom.transitions[(x, y)] with the full names of two hyperfine or Zeeman sublevels of different levels (including the 'mJ=' form) returns the same transition as indexing the fine-structure transition by the two F names and then by the two mF names.", "quantifier": "all atoms reachable through the public operations, all levels, F and mF", "why_tests_cant": "every combination of energies, spins and coefficients", "anchors": ["atomtoolkit/atom_helpers.py:TransitionStructure.__getitem__", "atomtoolkit/atom.py:BaseTransition.__getitem__"]}
{"id": "C80", "title": "Transition aliases", "statement": "After an alias is given to a transition (constructor, add_transition, attribute), atom.transitions[alias] is that transition, and stays so through any history that does not assign the alias again; what an alias finds is a transition of the atom.", "quantifier": "all atoms, all operation histories", "why_tests_cant": "histories are unbounded", "anchors": ["atomtoolkit/atom.py:BaseTransition.alias", "atomtoolkit/atom_helpers.py:TransitionStructure.__getitem__"]}
{"id": "C81", "title": "The listing of transitions is faithful", "statement": "keys(), values() and len() of atom.transitions agree; each transition is listed once, no pair in both orders, and a pair is listed in one of its orders exactly when the two levels are joined, under the names of the transition's two levels; list_names with self-transitions hidden leaves out exactly the pairs of equal names.", "quantifier": "all reachable atoms", "why_tests_cant": "all graphs and histories", "anchors": ["atomtoolkit/atom_helpers.py:TransitionStructure.list_names", "atomtoolkit/atom_helpers.py:TransitionStructure.values"]}
{"id": "C82", "title": "add_transition by two names", "statement": "atom.add_transition((a, b)) between levels that are not joined makes one transition with the given frequency and rate and changes no other pair; between joined levels it returns the transition that is there.", "quantifier": "all reachable atoms, all pairs of names, both orders", "why_tests_cant": "both orders against all energy orders", "anchors": ["atomtoolkit/atom.py:Atom.add_transition"]}
{"id": "C83", "title": "Enforcement in floating point errs by one rounding", "statement": "With any rounding applied to every sum and difference, enforce_consistency on a loop-free group with nothing pinned returns, pins the levels and leaves every set frequency reproduced up to the rounding of one operation (relative 2^-53 of one of the two energies for doubles), however long the chain; along a way over k set transitions the frequencies add up to the difference of the energies up to k such roundings; with nothing pinned it never warns.", "quantifier": "all reachable atoms, all rounding functions, all set orders", "why_tests_cant": "error accumulation over chains of unbounded length", "anchors": ["atomtoolkit/atom.py:Atom.enforce_consistency"]}
{"id": "C84", "title": "Enforcement in floating point is idempotent", "statement": "Enforcing a loop-free atom twice in double precision warns about nothing and moves no level the second time.", "quantifier": "all reachable atoms with double-precision energies and frequencies", "why_tests_cant": "all floating-point values", "anchors": ["atomtoolkit/atom.py:Atom.enforce_consistency"]}
{"id": "C85", "title": "The NIST table is cut at the first ionization limit", "statement": "Of the table NIST returns, exactly the rows that have a level and stand before the first ionization limit are kept, in order, each once per value of J; a table without a limit row is kept whole.", "quantifier": "all tables", "why_tests_cant": "all tables, any number of rows", "anchors": ["atomtoolkit/IO.py:_load_NIST_data"]}
{"id": "C86", "title": "NIST rows are cleaned independently", "statement": "What a row of the NIST table gives does not depend on the other rows: a table closed by a limit gives what its rows give one at a time.", "quantifier": "all tables", "why_tests_cant": "interference between arbitrary rows", "anchors": ["atomtoolkit/IO.py:_load_NIST_data"]}
{"id": "C87", "title": "Leading percentages are read", "statement": "The percentage of a level, and the percentage, configuration and term of its second component, are those written in the cell of leading percentages; a second component without a term gets the JJ term of the first two J values in its configuration.", "quantifier": "all rows, all cells of the documented forms", "why_tests_cant": "all texts, spacings and numbers", "anchors": ["atomtoolkit/IO.py:_load_NIST_data"]}
{"id": "C88", "title": "Missing terms come from the leading percentages", "statement": "A term that is missing or a lone star is the one written between the first percentage and the colon; empty when there is none there; a term that is given is kept without its leading letter.", "quantifier": "all rows", "why_tests_cant": "all texts, spacings and numbers; backtracking of the regular expression", "anchors": ["atomtoolkit/IO.py:_load_NIST_data"]}
{"id": "C89", "title": "One row per value of J", "statement": "A row whose J lists several values, separated by commas or 'or', gives one row for each value in order, alike in everything else, and frac_to_float of each J is that value.", "quantifier": "all rows, all lists of half-integers", "why_tests_cant": "lists of any length and values", "anchors": ["atomtoolkit/IO.py:_load_NIST_data", "atomtoolkit/util.py:frac_to_float"]}
{"id": "C90", "title": "Landé factor of a mixed level", "statement": "The Landé factor of a level with several components is the mean of the components' Landé factors, weighted with their percentages; each component enters with its own L, S and J.", "quantifier": "all lists of LS components, all percentages", "why_tests_cant": "any number of components and any percentages", "anchors": ["atomtoolkit/atom.py:EnergyLevel.compute_gJ", "atomtoolkit/term.py:MultiTerm"]}
{"id": "C91", "title": "LS composition lists each contributing LS term once", "statement": "term_to_LS of a JJ, JK or LK coupled term returns, once each, the LS terms whose amplitude in the recoupling is not zero, with 100 times the squared amplitude rounded to two decimals; each label parses back to its L and S. A quantum number that the conversion needs and the texts do not give raises a TypeError.", "quantifier": "all configurations, terms and quantum numbers", "why_tests_cant": "all quantum numbers; a grid of any size; letters beyond Z", "anchors": ["atomtoolkit/util.py:term_to_LS", "atomtoolkit/util.py:_sets_to_list", "atomtoolkit/transition_strengths.py:JJ_to_LS", "atomtoolkit/transition_strengths.py:JK_to_LS", "atomtoolkit/transition_strengths.py:LK_to_LS"]}
{"id": "C92", "title": "LS composition keeps the parity", "statement": "The labels returned by term_to_LS carry the star of odd parity exactly when the term does.", "quantifier": "all configurations and terms", "why_tests_cant": "all texts and couplings", "anchors": ["atomtoolkit/util.py:term_to_LS", "atomtoolkit/util.py:_sets_to_list"]}
{"id": "C93", "title": "Impossible coupled states are rejected", "statement": "readable_LK_to_LS raises ValueError for quantum numbers that do not couple to the given K and J.", "quantifier": "all quantum numbers", "why_tests_cant": "all quantum numbers", "anchors": ["atomtoolkit/util.py:readable_LK_to_LS", "atomtoolkit/util.py:_sets_to_list"]}
{"id": "C94", "title": "Landé factor of coupled levels", "statement": "The Landé factor of a JJ, JK or LK coupled level is the sum over LS terms of the squared amplitude times the Landé factor of that LS term.", "quantifier": "all coupled terms", "why_tests_cant": "all quantum numbers; irrational amplitudes", "anchors": ["atomtoolkit/atom.py:EnergyLevel.compute_gJ", "atomtoolkit/transition_strengths.py:LK_to_LS"]}
{"id": "C95", "title": "LS compositions add up to 100 %", "statement": "The percentages that term_to_LS / readable_JJ_to_LS, readable_JK_to_LS and readable_LK_to_LS return for a state whose numbers can couple add up to 100, up to the rounding of each entry.", "quantifier": "all coupled terms, all quantum numbers", "why_tests_cant": "orthogonality of 6j and 9j symbols for all quantum numbers", "anchors": ["atomtoolkit/util.py:readable_JJ_to_LS", "atomtoolkit/util.py:readable_JK_to_LS", "atomtoolkit/util.py:readable_LK_to_LS", "atomtoolkit/transition_strengths.py:JJ_to_LS"]}
{"id": "C96", "title": "Hyperfine strengths of every allowed line add up", "statement": "For every line that Transition.transition_allowed accepts, other than J=0 to J'=0, the hyperfine strengths from one F to all F' add up to (2F+1)/(2J+1), those to one F' from all F to (2F'+1)/(2J'+1), and all of them to 2I+1, for dipole and quadrupole lines alike.", "quantifier": "all I, J, J', parities, F, F'", "why_tests_cant": "sum rule over all spins", "anchors": ["atomtoolkit/atom.py:Transition.transition_allowed", "atomtoolkit/atom.py:HFTransition.compute_linewidth"]}
{"id": "C97", "title": "Zeeman strengths of a hyperfine line add up", "statement": "The strengths from one Zeeman sublevel mF to all sublevels of the other hyperfine level add up to 1/(2F+1), for dipole and quadrupole transitions.", "quantifier": "all F, F', mF", "why_tests_cant": "sum rule over all spins", "anchors": ["atomtoolkit/atom.py:ZTransition.compute_linewidth"]}
{"id": "C98", "title": "Every Zeeman sublevel has the same total strength", "statement": "Over all hyperfine and Zeeman lines of a transition, the relative strengths of the lines that start at (F, mF) add up to 1/(2J+1), whatever F and mF.", "quantifier": "all I, J, J', F, mF", "why_tests_cant": "sum rule over all spins", "anchors": ["atomtoolkit/atom.py:HFTransition.compute_linewidth", "atomtoolkit/atom.py:ZTransition.compute_linewidth"]}
{"id": "C99", "title": "Enforcement does not move pinned levels", "statement": "A level that has been pinned by an earlier enforcement stays pinned and is not moved by a later enforce_consistency.", "quantifier": "all reachable atoms, all iteration orders", "why_tests_cant": "all graphs of set transitions, all histories", "anchors": ["atomtoolkit/atom.py:Atom.enforce_consistency"]}
{"id": "C100", "title": "Levels linked to a hyperfine level", "statement": "linked_levels with the name of a hyperfine level lists exactly the hyperfine levels of the linked levels that an allowed multipole of the transition couples it to, each with the transition between the two.", "quantifier": "all reachable atoms, levels, F, earlier calls", "why_tests_cant": "all sets of linked levels and all I, J, F, and every history of earlier calls", "anchors": ["atomtoolkit/atom.py:Atom.linked_levels", "atomtoolkit/atom.py:Transition.populate_subtransitions"]}
{"id": "C101", "title": "Lifetime of a hyperfine level", "statement": "state_lifetime of a hyperfine level equals the lifetime of the fine-structure level it belongs to.", "quantifier": "all reachable atoms with manifolds that do not overlap, all I, J, F", "why_tests_cant": "all nuclear spins, angular momenta, sets of decay channels and rates", "anchors": ["atomtoolkit/atom.py:Atom.state_lifetime", "atomtoolkit/atom.py:HFTransition"]}
{"id": "C102", "title": "Branching ratios of a hyperfine level", "statement": "compute_branching_ratios of a hyperfine level gives a probability distribution whose total over the hyperfine levels of each lower level is the branching ratio of the fine-structure transition; the share of F' is (2F'+1)(2J+1) times the square of the 6j symbol.", "quantifier": "all reachable atoms with manifolds that do not overlap and lines that obey the triangle rule of their leading multipole, all I, J, F", "why_tests_cant": "all nuclear spins, angular momenta, sets of decay channels and rates", "anchors": ["atomtoolkit/atom.py:Atom.compute_branching_ratios", "atomtoolkit/atom.py:HFTransition"]}
{"id": "C103", "title": "Turning the light about the quantisation axis changes nothing", "statement": "Turning the polarisation (and, for E2, the wave vector with it) about the quantisation axis leaves E1/M1_transition_strength_geom, |E1_mel_geom|, E2_transition_strength_geom and |E2_mel_geom| unchanged.", "quantifier": "all polarisations, wave vectors, angles and quantum numbers", "why_tests_cant": "all real vectors and angles", "anchors": ["atomtoolkit/transition_strengths.py:E1_mel_geom", "atomtoolkit/transition_strengths.py:E2_mel_geom", "atomtoolkit/transition_strengths.py:E2_transition_strength_geom"]}
{"id": "C104", "title": "E2 strength is the squared matrix element", "statement": "For every real polarisation and wave vector orthogonal to it, E2_transition_strength_geom equals |E2_mel_geom|^2.", "quantifier": "all polarisations, wave vectors and quantum numbers", "why_tests_cant": "all real vectors", "anchors": ["atomtoolkit/transition_strengths.py:E2_mel_geom", "atomtoolkit/transition_strengths.py:E2_transition_strength_geom"]}
{"id": "C105", "title": "Realistic diagrams have the lines at the heights of the energies", "statement": "With spacing='realistic', the line of every hyperfine level in the 'hf' strategy lies above the height of its level by hf_scale times its distance in energy (THz), and every line of the 'zeeman' strategy by hf_scale times (distance of the hyperfine level + z_scale times distance of the sublevel from it); so hyperfine lines are drawn in the order of their energies.", "quantifier": "all reachable atoms, levels, hyperfine constants, fields and keyword values", "why_tests_cant": "all constants and spins", "anchors": ["atomtoolkit/render/grotrian.py:Grotrian._compute_hflevel_row", "atomtoolkit/render/grotrian.py:Grotrian._compute_zlevel_row"]}
{"id": "C106", "title": "Schematic diagrams space the lines equally about the level", "statement": "With spacing='schematic' the hyperfine lines of a level are equally spaced, in the order of their energies, and centred on the height of the level.", "quantifier": "all reachable atoms, levels and hyperfine constants", "why_tests_cant": "all constants and spins", "anchors": ["atomtoolkit/render/grotrian.py:Grotrian._compute_hflevel_row"]}
{"id": "C107", "title": "Levels linked to a Zeeman level", "statement": "linked_levels with the name of a Zeeman level lists exactly the Zeeman levels of the linked levels that an allowed multipole of the transition couples it to, each with the transition between the two.", "quantifier": "all reachable atoms, levels, F, m, earlier calls", "why_tests_cant": "all sets of linked levels and all I, J, F, m, and every history of earlier calls", "anchors": ["atomtoolkit/atom.py:Atom.linked_levels", "atomtoolkit/atom.py:HFTransition.populate_subtransitions"]}
{"id": "C108", "title": "Lifetime of a Zeeman level", "statement": "state_lifetime of a Zeeman level equals the lifetime of the fine-structure level it belongs to.", "quantifier": "all reachable atoms whose dipole lines keep their direction between the Zeeman levels, all I, J, F, m", "why_tests_cant": "all nuclear spins, angular momenta, fields, sets of decay channels and rates", "anchors": ["atomtoolkit/atom.py:Atom.state_lifetime", "atomtoolkit/atom.py:ZTransition"]}
{"id": "C109", "title": "Branching ratios of a Zeeman level", "statement": "compute_branching_ratios of a Zeeman level with dipole lines gives a probability distribution whose total over the Zeeman levels of each lower level is the branching ratio of the fine-structure transition; the share of (F', m') is (2J+1)(2F+1)(2F'+1) times the square of the 6j symbol times the square of the 3j symbol.", "quantifier": "all reachable atoms whose dipole lines obey the triangle rule and keep their direction between the Zeeman levels, all I, J, F, m", "why_tests_cant": "all nuclear spins, angular momenta, fields, sets of decay channels and rates", "anchors": ["atomtoolkit/atom.py:Atom.compute_branching_ratios", "atomtoolkit/atom.py:ZTransition"]}
{"id": "C110", "title": "NIST cells are stripped of their decoration", "statement": "The text read from a cell of the NIST table is what stands between the blanks, equals signs, quotes and question marks around it; two tables that differ only in such decoration give the same levels. Levels and Lande factors are the numbers in their cells, and a table without a column of Lande factors gives none.", "quantifier": "all cells and all tables", "why_tests_cant": "all texts and all mixtures of decoration", "anchors": ["atomtoolkit/IO.py:_load_NIST_data"]}
{"id": "C111", "title": "Transition tables are loaded by the columns named", "statement": "load_transition_data returns the six columns that the dictionary names, unchanged, under the documented keys; freq and A fall back to frequency and A_coeff; a missing column raises KeyError and a missing dictionary TypeError; the dictionary passed keeps its entries and gets at most the two short names added.", "quantifier": "all files and dictionaries", "why_tests_cant": "all sets of columns and names", "anchors": ["atomtoolkit/IO.py:load_transition_data"]}
{"id": "C112", "title": "Frequencies and rates of a loaded transition table carry units", "statement": "In the table load_transition_data returns, frequencies and rates are quantities; a rate q in the file is q MHz.", "quantifier": "all files and dictionaries", "why_tests_cant": "all files", "anchors": ["atomtoolkit/IO.py:load_transition_data"]}
{"id": "C113", "title": "Level tables are loaded by the columns named", "statement": "load_level_data with its default columns reads a file with the documented columns; with a dictionary it returns the columns named, and level columns in cm^-1 and Hz related by the speed of light.", "quantifier": "all files and dictionaries", "why_tests_cant": "all files", "anchors": ["atomtoolkit/IO.py:load_level_data"]}
{"id": "C114", "title": "Level values survive loading", "statement": "Every level in the file that can be read as a number is that number of cm^-1 in the table returned by load_level_data.", "quantifier": "all level columns", "why_tests_cant": "all mixtures of readable and unreadable cells", "anchors": ["atomtoolkit/IO.py:load_level_data"]}
{"id": "C115", "title": "A full atom from a table", "statement": "generate_full_from_dataframe returns an atom with the levels of the table in order, the constants of the hyperfine file, the transitions of the transition table and a transition from each level to itself.", "quantifier": "all readable level tables with plain distinct names, hyperfine files, transition tables, orders of iteration", "why_tests_cant": "all tables and files", "anchors": ["atomtoolkit/IO.py:generate_full_from_dataframe", "atomtoolkit/atom.py:Atom.from_dataframe", "atomtoolkit/atom.py:Atom.populate_transitions_df", "atomtoolkit/atom.py:Atom.populate_internal_transitions"]}
{"id": "C116", "title": "Sublevels are listed as a dictionary", "statement": "len, iteration, keys, values, items and sublevels of a level or hyperfine level agree with each other: there is one sublevel per allowed F (or m_F), each listed once under its name, and looking a listed key up gives the object listed.", "quantifier": "all reachable atoms and all their levels", "why_tests_cant": "all levels, spins and histories of calls", "anchors": ["atomtoolkit/atom.py:BaseLevel.__len__", "atomtoolkit/atom.py:BaseLevel.keys", "atomtoolkit/atom.py:BaseLevel.values", "atomtoolkit/atom.py:BaseLevel.items", "atomtoolkit/atom.py:BaseLevel.sublevels"]}
{"id": "C117", "title": "Sublevels can be deleted", "statement": "After del level[key] for a sublevel of the level the key is no longer listed; the other sublevels stay.", "quantifier": "all reachable atoms, levels and keys", "why_tests_cant": "all levels and keys", "anchors": ["atomtoolkit/atom.py:BaseLevel.__delitem__"]}
{"id": "C118", "title": "Transitions can be assigned and deleted by item", "statement": "atom.transitions[key] = t stores a transition and del atom.transitions[key] removes the one listed under the key.", "quantifier": "all reachable atoms, keys and transitions", "why_tests_cant": "all atoms and keys", "anchors": ["atomtoolkit/atom_helpers.py:TransitionStructure.__setitem__", "atomtoolkit/atom_helpers.py:TransitionStructure.__delitem__", "atomtoolkit/atom_helpers.py:TransitionStructure.append"]}
{"id": "C119", "title": "The constructor takes levels and transitions", "statement": "Atom(name, I, B, levels, transitions) has the levels listed, in order and unchanged, with the spin and field given; transitions listed are in the atom and bring their levels with them.", "quantifier": "all lists of levels and transitions", "why_tests_cant": "all lists", "anchors": ["atomtoolkit/atom.py:Atom.__init__"]}
{"id": "C120", "title": "The fields of a Gaussian beam", "statement": "For a GaussianBeam with the attributes its constructor is meant to set, w(z) is the beam radius (w0 at the waist, sqrt(2) w0 at the Rayleigh range, symmetric and growing), E(z, r) has a Gaussian profile whose power does not depend on z and equals LightField.E in the middle of the waist, B(z, r) is as large as E(z, r)/c, phase_at is the Gouy phase and radius_at the radius of curvature of the fronts.", "quantifier": "all beams, all positions", "why_tests_cant": "A test evaluates some beams at some positions; symmetry, monotony, conservation and bounds are about all real positions.", "anchors": ["atomtoolkit/environment.py:39-60"]}
{"id": "C121", "title": "Arrows of a diagram run between the lines of their levels", "statement": "Rendering a Grotrian diagram draws for every transition added an arrow from the line of its lower level to the line of its upper level as the atom is at that time, at the anchors and offsets asked for (by default the middles); for a sublevel not drawn itself the arrow aims at the level it lies in; an arrow to a level not drawn at all raises.", "quantifier": "all atoms, prompts, arrows, anchors 1-9, offsets, tables of lines", "why_tests_cant": "A test renders one picture; which of several lines and boxes an arrow picks depends on every line drawn before, over all diagrams.", "anchors": ["atomtoolkit/render/grotrian.py:154-159", "atomtoolkit/render/grotrian.py:217-265"]}
{"id": "C122", "title": "Rendering a diagram again", "statement": "Rendering a diagram twice with nothing changed in between gives the same picture twice. A strategy that is not one of the three raises when the diagram is rendered, not when the level is added.", "quantifier": "all diagrams, strategies, atoms", "why_tests_cant": "A test renders once or twice one diagram; the claim is about all diagrams and any number of renderings before.", "anchors": ["atomtoolkit/render/grotrian.py:169-215"]}
{"id": "C123", "title": "A sublevel drawn alone is drawn as in the whole level", "statement": "A hyperfine level added to a diagram by itself with the hyperfine strategy has the same line as when the whole level is added; a Zeeman level with the Zeeman strategy likewise; with the gross strategy a sublevel stands for its level; a Zeeman level with the hyperfine strategy is drawn at the height of its hyperfine level or of its own energy; it has the ends of the line of its hyperfine level; with squeeze=False the lines are scaled by the largest F of the lowest level of the atom.", "quantifier": "all reachable atoms, levels in them, sublevels, keyword arguments", "why_tests_cant": "Equality of lines computed on two paths for all sublevels, shifts and keyword arguments.", "anchors": ["atomtoolkit/render/grotrian.py:333-477"]}
{"id": "C124", "title": "Brackets and rectangles around levels", "statement": "Every line with bbox='bracket' gets two brackets at the sides of its box in its bracket_color, every line with bbox='rect' a rectangle with the corners of its box in its rect_color, and nothing else is drawn around lines.", "quantifier": "all tables of lines, boxes, kinds, colours", "why_tests_cant": "With one boxed line, or one colour, the colours come out right; only all combinations show the cycle.", "anchors": ["atomtoolkit/render/grotrian.py:171-205"]}
{"id": "C125", "title": "Centre of gravity of hyperfine lines", "statement": "The hyperfine lines of a transition, weighted with their relative strengths, have the frequency of the transition as their mean, whatever the hyperfine constants; the strengths add up to 2I+1.", "quantifier": "all reachable atoms, transitions, spins, constants, multipoles", "why_tests_cant": "Ties the energies of all sublevels, all 6j symbols and the filling of the dictionary together; a test sees one pair of levels.", "anchors": ["atomtoolkit/atom.py:517-531", "atomtoolkit/atom.py:728-783", "atomtoolkit/atom.py:591-593"]}
{"id": "C126", "title": "Total curve of a spectrum", "statement": "The dotted line of plot_transitions is the sum of the drawn curves: it has all their points in order, it does not depend on the order of the transitions, for one transition it is the curve, it never runs below a curve if none is negative, and where only one curve is drawn it is that curve.", "quantifier": "all lists of transitions, line shapes, numbers of points, units, amplitude dictionaries", "why_tests_cant": "Interpolation between the points of curves with any overlap; a test looks at a picture or at one arrangement.", "anchors": ["atomtoolkit/render/spectra.py:16-52", "atomtoolkit/render/lineshapes.py:54-58"]}
{"id": "C127", "title": "Front ends of spectra draw every line", "statement": "plot_spectrum, plot_hyperfine_spectrum and plot_zeeman_spectrum draw one curve for each line of what they are given, of 1000 points evenly around its frequency in GHz, with the relative strength times the entry of ampl_dict as amplitude, also with their default line shape; a colouring that is not on offer raises, and so does an empty list; without a line shape plot_spectrum takes the unbroadened one at temperature zero and otherwise the thermal one, for which a mass is needed.", "quantifier": "all lists of lines of one class, line shapes of positive width, colourings on offer, amplitude dictionaries", "why_tests_cant": "Nothing is returned; a test would have to take the figure apart.", "anchors": ["atomtoolkit/render/spectra.py:54-108", "atomtoolkit/render/spectra.py:141-199"]}
{"id": "C128", "title": "Subtransitions read as a dictionary", "statement": "len, iteration, keys, values, items and membership of a transition all describe one dictionary of subtransitions, each stored under the names of its lower and upper ends; key in t holds exactly when t[key] returns; reading twice gives the same and a Zeeman transition is empty.", "quantifier": "all reachable atoms, transitions and hyperfine transitions, keys", "why_tests_cant": "The first read computes the dictionary and changes the levels; agreement of every later read in every state is needed.", "anchors": ["atomtoolkit/atom.py:517-531", "atomtoolkit/atom.py:664-702"]}
{"id": "C129", "title": "Assigning and deleting subtransitions", "statement": "After t[k] = x, t[k] is x and all other entries are as before; after del t[k] of an entry, k is gone and all others are as before; deleting an unknown entry raises KeyError and changes nothing.", "quantifier": "all dictionaries of subtransitions, keys, values, states", "why_tests_cant": "Depends on whether anything was read before; the order of reads and writes is unbounded.", "anchors": ["atomtoolkit/atom.py:517-531", "atomtoolkit/atom.py:670-681"]}
{"id": "C130", "title": "Saving and loading an atom", "statement": "An atom saved under a file name is the atom loaded from that file name; other files are not touched; missing files, files that are no pickles and pickles of other objects are refused with their own errors.", "quantifier": "all atoms, file names, contents of the disk", "why_tests_cant": "All file names, with and without extension or directories.", "anchors": ["atomtoolkit/atom.py:970-996"]}
{"id": "C131", "title": "Centre of gravity of Zeeman lines", "statement": "The Zeeman lines of a hyperfine transition, weighted with their relative strengths, have the frequency of the hyperfine transition as their mean in every magnetic field, as long as no quadratic coefficient is set; for dipole transitions with a rate the strengths add up to 1.", "quantifier": "all reachable atoms, hyperfine transitions, spins, fields, multipoles", "why_tests_cant": "Ties all 3j symbols, the factors of all sublevels and the filling of the dictionary together; a test sees one pair of levels and one field.", "anchors": ["atomtoolkit/atom.py:499-503", "atomtoolkit/atom.py:517-531", "atomtoolkit/atom.py:786-845", "atomtoolkit/atom.py:591-593"]}
{"id": "C132", "title": "Adding a transition by a pair of levels", "statement": "add_transition called with a pair of levels of the atom does the same as with the pair of their names: it makes a new transition with the rate, frequency and alias given, and leaves every other transition object and every other pair of levels as it was.", "quantifier": "all reachable atoms, pairs of levels, data", "why_tests_cant": "Depends on the registered transitions, aliases and name keys of every state in which the call is made.", "anchors": ["atomtoolkit/atom.py:937-960", "species/Yb_II_171.py:44-48"]}
{"id": "C133", "title": "Wavelength and frequency", "statement": "Every transition of an atom has a positive wavelength wl, and wavelength times frequency is the speed of light: larger frequencies have shorter wavelengths, inverse wavelengths of successive steps add up, and a transition whose frequency is set as a wavelength reads that wavelength back.", "quantifier": "all reachable atoms, transitions, wavelengths, wavenumbers", "why_tests_cant": "Holds between all pairs and triples of levels of every atom, whatever the energies; degenerate levels are one exception in a continuum.", "anchors": ["atomtoolkit/atom.py:591-605", "atomtoolkit/atom.py:547-548", "atomtoolkit/__init__.py:11-20", "atomtoolkit/atom.py:1160-1167"]}
{"id": "C134", "title": "Constants change only by assignment", "statement": "The term, Lande factor and hyperfine constants of a level stay as given to its constructor until they are assigned, whatever else is done to the atom (energies, field, set frequencies, enforcement, sublevels, aliases, deletion); assigning those of one level leaves all others alone; the energies of the sublevels are those of the constants so given.", "quantifier": "all histories, levels, constants", "why_tests_cant": "A frame condition over every call and every interleaving of calls.", "anchors": ["atomtoolkit/atom.py:246-264", "atomtoolkit/atom.py:1131-1169", "atomtoolkit/atom.py:286-307"]}
{"id": "C135", "title": "Printed forms", "statement": "Every object can be printed: the level and transition containers with their number of members, the atom with its spin and number of levels, a level with its name, energy and number of sublevels, a transition with its frequency and rate, a term with its components.", "quantifier": "all reachable atoms, levels, transitions, terms", "why_tests_cant": "Depends on the state (empty containers, sublevels computed or not) at the moment of printing.", "anchors": ["atomtoolkit/atom.py:74-78", "atomtoolkit/atom.py:584-588", "atomtoolkit/atom.py:909-913", "atomtoolkit/atom_helpers.py:22-23", "atomtoolkit/atom_helpers.py:99-100", "atomtoolkit/term.py:123-127"]}
{"id": "C136", "title": "Two atoms in one program are independent", "statement": "A call on one Atom, on its levels or on its transitions leaves every other Atom as it was: names, aliases, levels, their energies, constants and sublevels, transitions and frequencies.", "quantifier": "all programs with two atoms, all interleavings of calls, all calls", "why_tests_cant": "Every interleaving of calls on two atoms, with levels of equal names and lazily computed sublevels.", "anchors": ["atomtoolkit/atom.py:179-185", "atomtoolkit/atom.py:876-900", "atomtoolkit/atom.py:564-568", "atomtoolkit/atom.py:738-744"]}
{"id": "C137", "title": "Sublevels follow the spin of the atom", "statement": "The sublevels of a level of an atom are the hyperfine levels for the nuclear spin of that atom.", "quantifier": "all programs with two atoms, all levels", "why_tests_cant": "Depends on the order in which sublevels are computed and levels are added.", "anchors": ["atomtoolkit/atom.py:25-38", "atomtoolkit/atom.py:179-185", "atomtoolkit/atom.py:281-289"]}
{"id": "C138", "title": "set_frequency acts in the atom of the transition", "statement": "transition.set_frequency(f) takes effect in the atom that has the transition, and in no other one.", "quantifier": "all programs with two atoms, all transitions, f >= 0", "why_tests_cant": "The atom used is looked up through the first level of the transition at the time of the call.", "anchors": ["atomtoolkit/atom.py:738-744", "atomtoolkit/atom.py:179-180", "atomtoolkit/atom.py:564-566"]}
{"id": "C139", "title": "Plain and modulated Lorentzian agree", "statement": "A ModLorentzianLineShape of modulation depth zero draws the same line as the LorentzianLineShape with the same gamma, for every keyword argument they accept.", "quantifier": "all reals, sideband counts and keyword arguments", "why_tests_cant": "All reals; the disagreement needs the keyword A_coeff.", "anchors": ["atomtoolkit/render/lineshapes.py:LorentzianLineShape", "atomtoolkit/render/lineshapes.py:ModLorentzianLineShape"]}
{"id": "C140", "title": "Colours of a spectrum tell the lines apart", "statement": "color_table_from_property gives every item a colour; two items have the same colour of the map exactly if they agree in the property shown by colours, and the same colour and lightness exactly if they agree in both properties.", "quantifier": "all lists of items, all properties", "why_tests_cant": "All lists; the failure needs more than ten different values.", "anchors": ["atomtoolkit/render/spectra.py:color_table_from_property"]}
{"id": "C141", "title": "A level made with parent=atom belongs to the atom", "statement": "EnergyLevel(term, energy, parent=atom) makes a level of that atom: atom.levels lists it and finds it by its name.", "quantifier": "all reachable atoms, all terms, energies and names", "why_tests_cant": "All histories of the atom and all levels; the species files never pass parent.", "anchors": ["atomtoolkit/atom.py:246-275", "atomtoolkit/atom.py:54-73", "atomtoolkit/atom.py:879-931"]}
{"id": "C142", "title": "The quick drawing shows every level and transition", "statement": "draw_levels(atom, type) draws every level of the chosen kind once, at (J, E/THz), and one line per transition between them; for 'hf' and 'z' the sublevels.", "quantifier": "all reachable atoms, all three kinds", "why_tests_cant": "All histories of the atom; positions of all levels.", "anchors": ["atomtoolkit/render/grotrian.py:11-29"]}
{"id": "C143", "title": "The thermal line has the Doppler width", "statement": "ThermalGaussianLineShape(T, m) has the profile of a line broadened by the motion of atoms of mass m at temperature T: an atom with velocity v absorbs at x0(1+v/c), with the Boltzmann weight of m v^2/2.", "quantifier": "all positive T, m, x0, all x", "why_tests_cant": "Real-valued inputs; the error is a constant factor that looks plausible in every plot.", "anchors": ["atomtoolkit/render/lineshapes.py:138-149", "atomtoolkit/render/lineshapes.py:152-167"]}
{"id": "C144", "title": "The thermal line has the height asked for", "statement": "At its centre a thermal line shape has the value ampl, as the Lorentzian and the Gaussian have.", "quantifier": "all positive widths, linewidths, frequencies and amplitudes", "why_tests_cant": "Real-valued inputs; the Voigt profile is an integral.", "anchors": ["atomtoolkit/render/lineshapes.py:27-28", "atomtoolkit/render/lineshapes.py:152-167"]}
{"id": "C145", "title": "The unit and the zero of energy are conventions", "statement": "Take any program that builds and changes an atom. Multiply every energy, hyperfine constant, set frequency and field in it by k > 0 and add c to every level energy. Then every call succeeds or raises the same exception as before, the same names, ranks, transitions and warnings result, every level and sublevel energy E becomes k E + c, and every frequency f becomes k f.", "quantifier": "all programs, all k > 0, all c, all atoms", "why_tests_cant": "Relates two runs of every program; a hidden absolute tolerance or a wrongly shifted term shows only for particular magnitudes.", "anchors": ["atomtoolkit/atom.py:281-303", "atomtoolkit/atom.py:409-443", "atomtoolkit/atom.py:500-503", "atomtoolkit/atom.py:591-602", "atomtoolkit/atom.py:1131-1169"]}
{"id": "C146", "title": "Looking things up is invisible", "statement": "Looking up levels, sublevels and transitions by name, anywhere in a program that builds and changes an atom, changes neither the result nor the exception of any other call, nor the levels, constants, energies, transitions, frequencies and aliases at the end. Hyperfine levels looked up at the end have the same energy with and without the earlier lookups.", "quantifier": "all programs of calls on levels, transitions and the atom, with lookups inserted anywhere; all states", "why_tests_cant": "Lookups create sublevels lazily, so a leak would depend on which of unboundedly many orders of calls is used.", "anchors": ["atomtoolkit/atom.py:25-38", "atomtoolkit/atom.py:189-226", "atomtoolkit/atom.py:281-290", "atomtoolkit/atom_helpers.py:25-57", "atomtoolkit/atom_helpers.py:102-140"]}
{"id": "C147", "title": "Ritz's combination principle", "statement": "Along any way from level to level over transitions, hyperfine lines and Zeeman lines, the frequencies, added going up and subtracted going down, sum to the difference of the energies at the two ends; around a loop they sum to zero.", "quantifier": "all states of all atoms, all ways of any length", "why_tests_cant": "Unboundedly long ways through arbitrary states, also after enforcing frequencies.", "anchors": ["atomtoolkit/atom.py:591-598", "atomtoolkit/atom.py:442-443", "atomtoolkit/atom.py:500-503"]}
{"id": "C148", "title": "The interval rule of hyperfine structure", "statement": "Hyperfine levels F and F-1 of a level without octupole constant are apart by A F + B (3/2) F (F^2 - I(I+1) - J(J+1) + 1/2) / (I(2I-1) J(2J-1)), the second term being absent for I or J below 1. With B = C = 0 the levels lie in the order of F for A > 0 and in the opposite order for A < 0. The shifts are linear in A, B and C.", "quantifier": "all spins I and J, all F, all constants, all reachable atoms", "why_tests_cant": "Rational identities over infinitely many spins.", "anchors": ["atomtoolkit/atom.py:409-436"]}
{"id": "C149", "title": "The order of construction does not matter", "statement": "Adding the same levels to an atom in another order gives an atom with levels of the same names and energies, the same energy at every rank, and, if no two energies are equal, the same level at every rank. More generally this holds for any two atoms with levels of the same names and energies, however they came about.", "quantifier": "all lists of levels with different names, all permutations, all ranks including negative ones and those out of range; all pairs of reachable atoms", "why_tests_cant": "All permutations of lists of any length.", "anchors": ["atomtoolkit/atom.py:915-935", "atomtoolkit/atom_helpers.py:25-57"]}
{"id": "C150", "title": "Frequencies set one after another are all met", "statement": "Setting non-negative frequencies on transitions without loops among them, one set_frequency call after another in any order, leaves every one of them with the frequency given. True when every call touches at least one level no earlier frequency is about; false in general, because a call between two groups of levels already set has no effect. If no frequency was set before, there always is an order of the calls in which all are met.", "quantifier": "all atoms reached by any program, all lists of transitions and frequencies, all iteration orders of the sets", "why_tests_cant": "Unboundedly many orders of calls on unboundedly many graphs; the failing order looks as harmless as the others.", "anchors": ["atomtoolkit/atom.py:738-751", "atomtoolkit/atom.py:1131-1169"]}
{"id": "C151", "title": "The species scripts build their atoms", "statement": "The scripts species/Yb_II_171.py, Yb_II_173.py and Yb_II_174.py, given an atom in which the levels and transitions they name are found, run to their end, and afterwards each pair of levels for which a frequency is given has it. True of 173 and 174; false of 171, which raises TypeError whatever the atom, because add_transition gets two levels instead of a pair.", "quantifier": "all atoms with the named levels and transitions and no frequency set, all iteration orders; for 171 all atoms", "why_tests_cant": "The scripts need the tables downloaded from NIST; the claim is about every table in which the names occur.", "anchors": ["species/Yb_II_171.py:37-52", "species/Yb_II_173.py:38-48", "species/Yb_II_174.py:38-49", "atomtoolkit/atom.py:937-961"]}
{"id": "C152", "title": "Zeeman patterns", "statement": "For manifolds that do not overlap, without quadratic coefficients and with one g factor per hyperfine level: the Zeeman lines of a hyperfine transition lie symmetrically about its frequency - to each line there is one between the sublevels with all m reversed, equally strong, with equal rate, and as far on the other side. If both levels have the same g factor, lines with the same change of m coincide: they lie at the frequency of the hyperfine line plus a multiple (m-m') g muB B of the Larmor frequency, a multiple of -1, 0 or 1 where only dipole types are allowed (normal Zeeman effect) and at most 2 otherwise.", "quantifier": "all atoms reached by any program, all hyperfine transitions, spins, fields, Wigner functions", "why_tests_cant": "All spins and fields; the symmetry needs a symmetry of the 3j symbols for all arguments.", "anchors": ["atomtoolkit/atom.py:499-503", "atomtoolkit/atom.py:591-593", "atomtoolkit/atom.py:786-845"]}
{"id": "C153", "title": "From NIST's table to the atom", "statement": "If the rows above the first ionization limit of NIST's level table write LS levels - a configuration, a term symbol, one or more possible values of J, a wave number, possibly a Lande factor, with NIST's marks around the cells or not, the leading percentages naming no second component or one with an LS term and no greater percentage - and the cleaning succeeds, then the atom made from the cleaned table has exactly one level for each row and value of J, in the order of the table, named by configuration, term symbol and J. Its energy is c times the wave number; its J, L, S and Lande factor are those of the row. Nothing below the limit becomes a level. The names must be different.", "quantifier": "all tables, numbers of rows, configurations, terms, spins, energies, marks, whatever follows the limit", "why_tests_cant": "The cleaning uses regular expressions on texts of any length, and the result depends on all rows at once; examples cover a few tables.", "anchors": ["atomtoolkit/IO.py:16-145", "atomtoolkit/atom.py:362-372", "atomtoolkit/atom.py:998-1021", "atomtoolkit/term.py:153-163"]}
{"id": "C154", "title": "The orthogonality warning", "statement": "E2_mel_geom and E2_transition_strength_geom warn exactly when polarization and wave vector are not at right angles. In exact arithmetic this is so. With any rounding: vectors without a common axis, and a vector of the xy plane with itself turned by a right angle, give no warning; where no warning is given the scalar product is at most ((1+u)^4 - 1) times the sum of the sizes of its three terms, u being the relative error of an operation.", "quantifier": "all nonzero vectors, all roundings of relative error below 1, all square roots exact on squares", "why_tests_cant": "The comparison with zero is made after six roundings; the vectors for which it goes wrong are not the round ones used in examples.", "anchors": ["atomtoolkit/transition_strengths.py:93-99", "atomtoolkit/transition_strengths.py:114-120"]}
{"id": "C155", "title": "Setting a frequency to its present value", "statement": "In an atom whose set frequencies are all met, setting a transition to the frequency it has moves no level, reports nothing, and only makes that frequency the set one; enforce_consistency likewise moves nothing and reports nothing, whichever levels are pinned.", "quantifier": "all reachable atoms, all orders in which the enforcement walks its graph", "why_tests_cant": "all set graphs, loops included, and every history of pinning and releasing levels", "anchors": ["atomtoolkit/atom.py:Transition.set_frequency", "atomtoolkit/atom.py:Atom.enforce_consistency"]}
{"id": "C156", "title": "Scanning a frequency and setting it back", "statement": "Setting a transition to other frequencies and then back to the one it had restores every energy of the atom; and of several frequencies set one after another only the last one counts.", "quantifier": "all reachable atoms, all lists of positive frequencies, all orders in which the enforcement walks its graph at each step", "why_tests_cant": "scans of any length in set graphs of any shape", "anchors": ["atomtoolkit/atom.py:Transition.set_frequency", "atomtoolkit/atom.py:Atom.enforce_consistency"]}
{"id": "C157", "title": "All the Zeeman levels of a level", "statement": "Listing the sublevels of the sublevels of a level gives (2I+1)(2J+1) Zeeman levels, all different, whose energies add up to (2I+1)(2J+1) times the energy of the level plus B^2 times the sum of their quadratic coefficients: hyperfine constants and the linear Zeeman effect leave the centre of gravity where it is. Without quadratic coefficients the mean of their energies is the energy of the level, in every field.", "quantifier": "all reachable atoms and levels, all I, J, hyperfine constants, Lande factors, fields, whichever sublevels were computed before and whatever was assigned since", "why_tests_cant": "all spins, and all histories of lazily computed sublevels and reassigned constants", "anchors": ["atomtoolkit/atom.py:EnergyLevel.populate_sublevels", "atomtoolkit/atom.py:HFLevel.populate_sublevels", "atomtoolkit/atom.py:BaseLevel.values"]}
{"id": "C158", "title": "A call that raises changes nothing", "statement": "When a call on an atom raises, the atom is as it was before (up to sublevels computed on the way): every later call returns or raises as if the failed one had not been made. This holds for lookups, deletions, energies of sublevels, frequencies and enforcement, which moreover raise in no other cases than missing names and objects never built. It fails for an alias assigned to a level that is in no atom (AttributeError, but the alias is registered when the level is added later), for add_level(populate=True) of a level without J (TypeError, but the level is listed), and for add_transition of a transition whose subtransitions were computed (AttributeError, but the edge is set).", "quantifier": "all reachable atoms, all calls with the stated arguments, all continuations of the program", "why_tests_cant": "all states and all ways a call can raise, and all programs that go on after the exception", "anchors": ["atomtoolkit/atom.py:BaseLevel.alias", "atomtoolkit/atom.py:Atom.add_level", "atomtoolkit/atom.py:BaseTransition.add_to_atom", "atomtoolkit/atom.py:Transition.set_frequency", "atomtoolkit/atom_helpers.py:LevelStructure.__delitem__"]}
{"id": "C159", "title": "The field acts on Zeeman energies only", "statement": "Take any program that builds and changes an atom and replace the values it assigns to atom.B by any others. Every call returns or raises as before, and the atom at the end is the same but for the field; the energy of a Zeeman level differs by gF m muB (B'-B) + quad (B'^2-B^2) and everything else has the energy it had. With every field reversed, the Zeeman level with -m is where the one with m was. This fails for programs that assign energies to Zeeman levels: the level is then moved by an amount that depends on the field.", "quantifier": "all programs without assignments to the energy of a Zeeman level, all substitutions of fields, all Zeeman levels", "why_tests_cant": "all programs, all fields", "anchors": ["atomtoolkit/atom.py:ZLevel.shift_Hz", "atomtoolkit/atom.py:Atom.__init__", "atomtoolkit/atom.py:HFLevel.populate_sublevels"]}
{"id": "C160", "title": "What the warnings of enforce_consistency say", "statement": "A call of enforce_consistency gives one warning for every set frequency that is not met when it returns. In general it gives at most one warning for each set transition of the atom. When the set transitions join pinned levels and none is realised upside down the call changes nothing, there are never more warnings than unmet frequencies, and, when the set transitions form no loop, exactly as many. So the warnings, worded 'Loop of fixed transitions?', also come when there is no loop. The claim fails for loops on levels not pinned before: a frequency is left unmet without a warning.", "quantifier": "all atoms, all orders of the sets in networkx, all triggers (for the bounds)", "why_tests_cant": "all atoms and all orders of traversal", "anchors": ["atomtoolkit/atom.py:Atom.enforce_consistency"]}
{"id": "C161", "title": "The same program gives the same atom in every run", "statement": "A program leaves the same atom whatever the order in which Python iterates its sets (the order of a set of strings changes from run to run; enforce_consistency iterates sets). The success of enforce_consistency() and the pinning never depend on it: a level is pinned afterwards if it was before or has a set transition to another level, and levels without set transitions stay as they are. The whole atom does not depend on it when, at each call that enforces, the frequencies of the groups concerned can be met with the transitions the right way round and either nothing is pinned, no transition is upside down and one level is lower than all others, or some levels are pinned in the right place (among them the lowest ones, or one end of each transition). The claim fails with two degenerate lowest levels, and with a loop that cannot be met.", "quantifier": "all reachable atoms, all programs of the 18 calls, all pairs of orders of the sets in networkx at each call", "why_tests_cant": "a test runs with one hash seed; the claim is about all of them", "anchors": ["atomtoolkit/atom.py:Atom.enforce_consistency", "atomtoolkit/atom.py:Transition.set_frequency", "atomtoolkit/atom.py:Atom.add_transition"]}
{"id": "C162", "title": "The order of retunings does not matter", "statement": "Giving new frequencies to transitions whose frequencies were set before has the same outcome in whatever order the calls of set_frequency are made. This holds, for the whole atom with its energies, pinning and warnings, when the transitions are in groups not connected by set transitions, for any number of calls, whatever the frequencies, loops and pinned levels. The claim fails within a group: in the enforced chain g-a-b at 0, 1, 2, setting g-a to 4 and then a-b to 3 puts b at 7, the other way round b ends at 4 and a-b is left unmet.", "quantifier": "all reachable atoms, all lists of calls and their permutations, all orders of the sets in networkx", "why_tests_cant": "all atoms, all permutations of all lists of calls", "anchors": ["atomtoolkit/atom.py:Transition.set_frequency", "atomtoolkit/atom.py:Atom.enforce_consistency"]}
{"id": "C163", "title": "Enforcing the whole atom is enforcing its groups one at a time", "statement": "If one set transition is chosen from each group of levels connected by set transitions, calling enforce_consistency for each of them, in any order, leaves the atom exactly as one call without argument does: energies, pinning, warnings, and everything else.", "quantifier": "all reachable atoms, all choices of one transition per group, all orders of the calls, all iteration orders of the sets in networkx", "why_tests_cant": "all atoms, choices and orders", "anchors": ["atomtoolkit/atom.py:Atom.enforce_consistency"]}
{"id": "C164", "title": "enforce_consistency can be restricted to a level or a transition", "statement": "Passing a level or a transition to enforce_consistency restricts it to the group of levels connected to it by set transitions, as the documentation of the parameter says. What holds: the pair of names of a transition does, and the name of a level if its group is the only one. With a second group the name of a level raises ValueError, its own group being enforced or not depending on which group comes first; the name of a level without set transition raises ValueError and changes nothing. Passing the level itself, as the signature says, enforces nothing and raises nothing if it has exactly two hyperfine levels (I or J 1/2, the smaller of them), and raises ValueError otherwise; a Zeeman level counts as no argument, so the whole atom is enforced. A transition object enforces nothing if it has exactly two subtransitions, everything if it has none, and raises ValueError otherwise.", "quantifier": "all reachable atoms, names and iteration orders", "why_tests_cant": "all atoms and all iteration orders; the library itself only passes pairs", "anchors": ["atomtoolkit/atom.py:Atom.enforce_consistency"]}
{"id": "C165", "title": "A frequency given to a transition standing alone takes effect", "statement": "If a transition is the only one with a set frequency in its group (the levels connected to it by set transitions), then after enforce_consistency it has this frequency: the upper level is moved to this distance above the lower one, or the lower one below the upper one if only the upper one is pinned. What holds: this is so exactly if not both levels are pinned or the frequency is the present one already; otherwise no level moves and there is one warning. Pins left by a transition that has been removed or replaced count.", "quantifier": "all reachable atoms, transitions, frequencies >= 0 and iteration orders", "why_tests_cant": "all atoms and histories; the pins left by earlier calls are invisible in the interface", "anchors": ["atomtoolkit/atom.py:Atom.enforce_consistency", "atomtoolkit/atom_helpers.py:TransitionStructure.__delitem__"]}
{"id": "C166", "title": "Energies, constants and fields can be given in any unit", "statement": "An energy or hyperfine constant may be given as a frequency, a wavelength, a wavenumber or an energy, in any unit: the level then has the frequency the quantity stands for, it reads back the number given in the unit given, and two quantities standing for the same frequency have the same effect; wavenumbers keep order and distances. A field may be given in any unit of magnetic field. What cannot be converted raises DimensionalityError and changes nothing; reading an energy or frequency in such a unit raises it too. What holds: this, except that a wavenumber of zero raises ZeroDivisionError (and an energy of zero cannot be read as a wavenumber), and that the energy of a hyperfine or Zeeman level and the frequency of a transition between them accept units of frequency only.", "quantifier": "all atoms, levels, magnitudes and units", "why_tests_cant": "all magnitudes and units; the failing cases depend on the path pint takes between dimensions", "anchors": ["atomtoolkit/atom.py:BaseLevel.level", "atomtoolkit/atom.py:EnergyLevel.__init__", "atomtoolkit/atom.py:EnergyLevel.hfA", "atomtoolkit/atom.py:HFTransition.set_frequency", "atomtoolkit/atom.py:Atom.B"]}
{"id": "C167", "title": "The hyperfine levels share out the magnetic moment of the level", "statement": "Over all the Zeeman levels of a level, the sum of mF times the linear Zeeman shift is (2I+1) times what it would be without nuclear spin, g_J mu_B B J(J+1)(2J+1)/3, and no Zeeman level is shifted further than g_J J mu_B B, which the stretched level reaches. What holds: this for every field and history in which no Lande factor is assigned after the Zeeman levels have been accessed; the sum rule for the factors g_F holds always.", "quantifier": "all atoms, levels, nuclear spins, fields; histories that assign Lande factors in time", "why_tests_cant": "all I, J and histories; a wrong factor for one F only shows in sums over whole multiplets", "anchors": ["atomtoolkit/atom.py:HFLevel.compute_gF", "atomtoolkit/atom.py:ZLevel.shift_Hz", "atomtoolkit/atom.py:BaseLevel.values"]}
{"id": "C168", "title": "The hyperfine constants can be computed back from the energies", "statement": "The energies of the hyperfine levels of a level determine the energy of the level, and the constants A (if I, J > 0), B (if I, J >= 1) and C (if I, J >= 3/2): each constant is the projection of the energies on the pattern of a unit constant, weighted by 2F+1. Where a constant is not determined it has no effect. With A alone the mean square of the shifts is A^2 I(I+1) J(J+1) / 3.", "quantifier": "all atoms, levels, nuclear spins I, angular momenta J and constants", "why_tests_cant": "all I and J; orthogonality of the three interactions is a polynomial identity in I and J", "anchors": ["atomtoolkit/atom.py:HFLevel.compute_hf_shift", "atomtoolkit/atom.py:EnergyLevel.populate_sublevels"]}
{"id": "C169", "title": "The README's lookup of a transition by two levels", "statement": "As in the README, a.transitions[b, d] with two levels b, d taken from a.levels returns the transition between them. What holds: with the names of the levels it does (lower level first, added first); with a level as either entry no call ever returns, whatever the state of the atom: for a level of the atom a KeyError is raised after its hyperfine levels have been computed, and no energy changes. An atom just made by from_dataframe, as in the README, has no transitions at all: whatever the table, no lookup by names or alias returns.", "quantifier": "all states of an atom, levels and sublevels, all pairs of keys with a level in them, all level tables", "why_tests_cant": "all states and all kinds of keys; one lookup in one atom does not show that none can succeed", "anchors": ["atomtoolkit/atom_helpers.py:LevelStructure.__getitem__", "atomtoolkit/atom_helpers.py:TransitionStructure.__getitem__", "atomtoolkit/atom.py:BaseLevel.__iter__", "atomtoolkit/atom.py:Atom.from_dataframe"]}
{"id": "C170", "title": "A frequency that cannot be converted", "statement": "set_frequency with something that cannot be converted to Hz (a number without unit, a quantity of another dimension, a wavelength of zero) raises and leaves the atom as it was. What holds: in a group of set transitions without loops it raises the error of the conversion, and the energies of all levels outside the group stay; while every frequency of a group can be converted, set_frequency and enforce_consistency do exactly what they do in C36-C38, whatever is stored elsewhere; setting a frequency that can be converted repairs the transition. But the frequency that raised stays stored: from then on enforce_consistency(), enforce_consistency of any set transition of the group and set_frequency of any other transition of the group raise, whatever they are given.", "quantifier": "all reachable atoms, all sequences of set_frequency and enforce_consistency calls some of which raised, all orders in which the sets are met, all arguments", "why_tests_cant": "all states after any number of failed calls, all groups and orders of the search; whether a call raises depends on the edges the search takes", "anchors": ["atomtoolkit/atom.py:Transition.set_frequency", "atomtoolkit/atom.py:Atom.enforce_consistency"]}
{"id": "C171", "title": "A linewidth assigned after construction", "statement": "Assigning transition.A, as in the README, is the same as having constructed the transition with that rate: lifetimes, branching ratios and hyperfine lines follow it. What holds: the lifetime of a level depends on the rates only, in whatever unit each was assigned (its product with their sum is 2 pi); the branching ratios are the shares of the rates if the rates of all transitions down from the level are in one unit; with nothing assigned both are what C43 and C44 say; hyperfine and Zeeman lines computed after the assignment carry the new rate, all multiplied by the same factor, with the same keys, relative strengths and types. But compute_branching_ratios adds magnitudes: rates of 1 Hz and 1 kHz give 1/2 and 1/2; lines computed before the assignment keep the old rate; with A None every hyperfine line has relative strength 1.", "quantifier": "all reachable atoms, levels, tables of rates and units, all Wigner functions, all rates and factors", "why_tests_cant": "all atoms, rates and units; a test with one unit does not see the magnitudes", "anchors": ["atomtoolkit/atom.py:Atom.state_lifetime", "atomtoolkit/atom.py:Atom.compute_branching_ratios", "atomtoolkit/atom.py:BaseTransition.compute_linewidth", "atomtoolkit/atom.py:HFTransition.compute_linewidth", "atomtoolkit/atom.py:ZTransition.compute_linewidth", "atomtoolkit/atom.py:lazy_compute_subtransitions"]}
{"id": "C172", "title": "Transitions between sublevels added to the atom", "statement": "Adding a transition between two hyperfine or Zeeman levels, atom.add_transition((a, b), freq=f), puts the two sublevels f apart. What holds: without a frequency it is added, it is listed in atom.transitions, no energy and no level of the atom changes. But with a frequency it raises AttributeError whatever f is, since sublevels have no setter for their energy; the transition stays in the atom with its frequency, and from then on every enforce_consistency() raises AttributeError, and so does every later transition added with a frequency; looking up levels, enforcing and setting frequencies leave it so, and setting the frequency of that transition raises too. Setting the frequency of a transition between two levels works as before. Adding the pair by name once more raises KeyError if there is no transition between the two levels; adding the level objects once more without a frequency cures the atom. Whenever a transition ending at a sublevel is enforced without an exception its two ends are marked fixed, and nothing else is. Between a level and a sublevel it depends on the order of the nodes whether adding raises.", "quantifier": "all reachable atoms with any number of such transitions added, all sublevels, frequencies and iteration orders", "why_tests_cant": "all atoms, histories and iteration orders; the exception leaves the atom changed", "anchors": ["atomtoolkit/atom.py:Atom.add_transition", "atomtoolkit/atom.py:Atom.enforce_consistency", "atomtoolkit/atom.py:HFLevel.level_Hz", "atomtoolkit/atom.py:Transition.set_frequency"]}
{"id": "C173", "title": "Hyperfine and Zeeman transitions made by hand", "statement": "A hyperfine transition made by hand, HFTransition(h1, h2, freq=f), between the ends of a subtransition of the atom has the types of that subtransition, and frequency f. What holds: it has the same lower and upper end; its types contain those of the subtransition, which are those the parent transition has too; it has no rate and relative strength 1. But its types do not depend on the parities: the electric dipole is among them exactly if the magnetic one is, so a line of the D2 transition gets M1 with E1; freq is ignored: the frequency is the distance of the two levels whatever f is; set_frequency raises AttributeError and changes nothing; its Zeeman lines change mF by 1 at most although E2 is among the types. ZTransition(z1, z2) always raises.", "quantifier": "all reachable atoms with half-integer spins, all pairs of hyperfine levels, frequencies and Wigner functions that are correct", "why_tests_cant": "all atoms, spins and frequencies; the types are those of 6j symbols, which vanish for no simple rule", "anchors": ["atomtoolkit/atom.py:HFTransition.compute_linewidth", "atomtoolkit/atom.py:HFTransition.transition_allowed", "atomtoolkit/atom.py:HFTransition.set_frequency", "atomtoolkit/atom.py:ZTransition.transition_allowed"]}
{"id": "C174", "title": "Sublevels assigned by hand", "statement": "After level[key] = sub, for a level of the atom and a hyperfine level sub, sub sits where the constants of level put it. What holds: level[key] is sub; no other level moves; sub and its Zeeman levels move by the difference between level and the former parent; from then on sub follows the energy of level, and setting the energy of sub moves level and no other; assigning what is there already changes nothing; if level has the constants of the former parent the claim holds. But sub keeps the hyperfine constants and the Lande factor of the level it was made in, so changing the constants of level does not move it; the former parent still lists it; and if the sublevels of level had not been computed yet, level now has no other sublevel.", "quantifier": "all states of the atom (the claim for all reachable ones), levels, sublevels, keys and energies", "why_tests_cant": "all states, including sublevels assigned several times, and all constants and energies", "anchors": ["atomtoolkit/atom.py:BaseLevel.__setitem__", "atomtoolkit/atom.py:lazy_compute_sublevels", "atomtoolkit/atom.py:HFLevel.compute_hf_shift", "atomtoolkit/atom.py:HFLevel.level"]}
{"id": "C175", "title": "A transition made with a frequency that cannot be converted", "statement": "add_transition((E1, E2), freq=x), where x cannot be converted to a frequency (a plain number, a quantity of another dimension, a wavelength of length zero), raises and adds nothing. What holds: Transition(E1, E2, freq=x) accepts every x without looking at it; if the set transitions make no loop and all others can be converted, add_transition raises the error of the conversion. But the transition stays in the atom with x in it. As long as it is there, add_transition with any frequency for any two levels not connected to it by set transitions raises too (and adds the transition all the same), while add_transition without a frequency works; set_frequency with a proper frequency repairs the atom.", "quantifier": "all reachable atoms including those with such transitions, all pairs of levels, all frequencies x, all orders of the neighbours", "why_tests_cant": "all atoms and all frequencies, and the state after the call that raised", "anchors": ["atomtoolkit/atom.py:BaseTransition.__init__", "atomtoolkit/atom.py:Atom.add_transition", "atomtoolkit/atom.py:Atom.enforce_consistency"]}
{"id": "C176", "title": "Deleting a level and putting it back", "statement": "del atom.levels[n] followed by atom.add_level(level), for the level listed under n, restores the atom: the level and its transitions are there again. What holds: deleting removes the level and its transitions and nothing else; adding brings the level back under its name with its energy, constants and sublevels (last in the listing), and a level without transitions is back as it was. But the transitions do not come back with the level. Adding each of them again with add_transition, in any order, before or after the level, restores all of them; the call raises for those whose subtransitions have been looked at, and takes effect all the same. If every set frequency was met, no energy changes. The level also takes back its alias if that had been given to another level.", "quantifier": "all reachable atoms, all levels, all orders of the transitions and of the neighbours", "why_tests_cant": "all atoms and all orders of adding", "anchors": ["atomtoolkit/atom_helpers.py:LevelStructure.__delitem__", "atomtoolkit/atom.py:Atom.add_level", "atomtoolkit/atom.py:Atom.add_transition", "atomtoolkit/atom.py:BaseTransition.add_to_atom"]}
{"id": "C177", "title": "Branching ratios and lifetimes fit together", "statement": "For a level with known rates that are not all zero, the branching ratio into a lower level divided by the lifetime is the rate of the transition over 2 pi, the convention of state_lifetime. (For a hyperfine level F the ratios into all sublevels of the lower level, added up and divided by the lifetime, come out (2F+1)/(2J+1) times that rate, and for a Zeeman level of a level with dipole lines 1/(2J+1) times: C101 and C108.)", "quantifier": "all reachable atoms, all levels and transitions, all hyperfine and Zeeman levels", "why_tests_cant": "all atoms and rates, and a relation between two calls", "anchors": ["atomtoolkit/atom.py:Atom.state_lifetime", "atomtoolkit/atom.py:Atom.compute_branching_ratios"]}
{"id": "C178", "title": "Adding a level again", "statement": "add_level with a level that is in the atom already changes no energy that can be looked up by name. What holds: without populate_sublevels nothing changes but the entry of the level's own alias, which means the level again; with populate_sublevels=True no level moves and no transition changes, the hyperfine sublevels have the same keys and energies, and the objects obtained earlier have their energies still. But the sublevels are replaced by new objects, so quadratic Zeeman shifts set on Zeeman levels are lost, and the g-factors are those of the present Lande factor.", "quantifier": "all reachable atoms, all levels, sublevels and fields", "why_tests_cant": "all histories of the atom; the tests add each level once", "anchors": ["atomtoolkit/atom.py:Atom.add_level", "atomtoolkit/atom.py:BaseLevel.add_to_atom", "atomtoolkit/atom.py:EnergyLevel.populate_sublevels", "atomtoolkit/atom.py:ZLevel.__init__"]}
{"id": "C179", "title": "Line patterns are rigid", "statement": "Whatever is done to an atom, short of assigning the hyperfine constants of a level, every hyperfine sublevel stays at the same distance from its level, and so does every Zeeman sublevel if the field and its quadratic shift are not assigned either. So a hyperfine or Zeeman line keeps its distance from the transition it belongs to, through setting frequencies, enforcing consistency, setting energies of levels or sublevels, adding and deleting levels and transitions, as long as the levels and the two sublevels stay in the same order. Without that condition it is false: a transition set to a frequency smaller than the splitting has sublevels that cross, and the line, an absolute value, is reflected.", "quantifier": "all worlds, all sublevels and lines, all sequences of operations", "why_tests_cant": "arbitrary sequences of operations; the tests look at one set_frequency with sublevels that do not cross", "anchors": ["atomtoolkit/atom.py:HFLevel.level_Hz", "atomtoolkit/atom.py:HFLevel.compute_hf_shift", "atomtoolkit/atom.py:ZLevel.shift_Hz", "atomtoolkit/atom.py:BaseTransition.freq_Hz", "atomtoolkit/atom.py:Transition.set_frequency"]}
{"id": "C180", "title": "Aliases are only names", "statement": "Leaving out every alias of a program - the alias arguments of levels, add_level and transitions, the key of levels[key] = level, and all assignments to alias - leaves an atom that is the same but for the aliases: the same levels, names, sublevels, energies, constants, fixed marks, transitions, links, frequencies, rates and warnings. It holds for every program that looks nothing up under an alias beginning with the name of a level; an alias that spells a sublevel hides it, and the program without the alias finds and computes that sublevel. Every call returns or raises as before, except lookups by alias and the construction of a transition with an alias between levels outside the atom, which raises after building it.", "quantifier": "all programs, all atoms", "why_tests_cant": "compares two runs of arbitrary programs; no test leaves out an alias", "anchors": ["atomtoolkit/atom.py:BaseLevel.alias", "atomtoolkit/atom.py:Atom.add_level", "atomtoolkit/atom.py:Atom.add_transition", "atomtoolkit/atom.py:BaseTransition.__init__", "atomtoolkit/atom_helpers.py:LevelStructure.__getitem__"]}
{"id": "C181", "title": "Hyperfine constants and rates act on nothing else", "statement": "Two programs that differ only in the hyperfine constants (A, B, C) they give to levels or assign, and in the rates they give to transitions, return and raise the same, call by call, and leave atoms that agree on all else: energies, names, sublevels and their factors, Lande factors, fixed marks, links, aliases, transitions with their set frequencies, allowed types and frequencies, and warnings. The energies of corresponding hyperfine levels differ by the difference of the hyperfine shifts. It holds for programs that assign no energies to sublevels; such an assignment moves the level by an amount that contains the shift, so there the constants reach the energies of levels.", "quantifier": "all pairs of programs differing only so, all atoms", "why_tests_cant": "compares two runs of arbitrary programs with arbitrary constants; no test varies a constant", "anchors": ["atomtoolkit/atom.py:EnergyLevel", "atomtoolkit/atom.py:HFLevel", "atomtoolkit/atom.py:Atom.enforce_consistency", "atomtoolkit/atom.py:BaseTransition.__init__", "atomtoolkit/atom.py:Atom.add_transition"]}
{"id": "C182", "title": "Lande factors and quadratic shifts act on nothing else", "statement": "Two programs that differ only in the Lande factors they give to levels or assign, and in the quadratic shifts they assign to Zeeman levels, return and raise the same, call by call, and leave atoms that agree on all else: energies of levels and hyperfine levels, names, sublevels, constants, fixed marks, links, aliases, transitions with their frequencies and rates, and warnings. The energies of corresponding Zeeman levels differ by the difference of the Zeeman shifts, and without a field not at all. It holds for programs that assign no energies to Zeeman levels; such an assignment moves the level by an amount that contains the shift.", "quantifier": "all pairs of programs differing only so, all atoms", "why_tests_cant": "compares two runs of arbitrary programs with arbitrary factors; no test varies a factor", "anchors": ["atomtoolkit/atom.py:EnergyLevel", "atomtoolkit/atom.py:HFLevel.compute_gF", "atomtoolkit/atom.py:ZLevel", "atomtoolkit/atom.py:Atom.enforce_consistency", "atomtoolkit/atom.py:HFLevel.populate_sublevels"]}
{"id": "C183", "title": "Sublevels computed at once or later", "statement": "Whether add_level is told to make the sublevels at once (populate_sublevels=True) or leaves them to be made when asked for makes no difference: two programs differing only in that leave the same levels, names, energies, constants, transitions, links, frequencies, aliases and warnings, every call other than add_level returns or raises the same, and so does add_level for levels whose sublevels can be made; hyperfine levels looked up by name afterwards have the same energies. It holds for programs about levels, transitions and the atom. The factors of hyperfine levels are those of the Lande factor at the time the sublevels are made, so they do depend on it once a Lande factor is assigned.", "quantifier": "all pairs of programs differing only in the flags, all atoms", "why_tests_cant": "compares two runs of arbitrary programs; the tests never vary the flag", "anchors": ["atomtoolkit/atom.py:Atom.add_level", "atomtoolkit/atom.py:EnergyLevel.populate_sublevels", "atomtoolkit/atom.py:lazy_compute_sublevels", "atomtoolkit/atom.py:HFLevel.compute_gF"]}
{"id": "C184", "title": "Isotopes without nuclear spin", "statement": "A level of an atom without nuclear spin has the one hyperfine level F = J, and a level without J has the one hyperfine level F = I. It is looked up under its name as any other; its energy is that of the level, whatever hyperfine constants the level has, and stays so while other things are looked up; its Zeeman levels have the energy of the level plus g mF muB B plus the quadratic coefficient times B^2. The one hyperfine line of an allowed transition has relative strength 1 (not 0-0).", "quantifier": "all reachable atoms with I = 0 or levels with J = 0, all constants, all fields", "why_tests_cant": "all spins J and all constants, after any program; the tests use isotopes with spin", "anchors": ["atomtoolkit/atom.py:EnergyLevel.populate_sublevels", "atomtoolkit/atom.py:HFLevel.compute_hf_shift", "atomtoolkit/atom.py:HFTransition.compute_linewidth", "atomtoolkit/atom.py:ZLevel"]}
{"id": "C185", "title": "Linking of sublevels is mutual", "statement": "If linked_levels of a hyperfine level lists another hyperfine level, then linked_levels of that one lists the first, and likewise for two Zeeman levels, whichever of them is asked first and whatever was listed before.", "quantifier": "all reachable atoms, all pairs of hyperfine levels and of Zeeman levels of levels that can be looked up, all earlier lists", "why_tests_cant": "All I, J, F, m and all graphs of transitions; each call builds the subtransitions of its own level only, in one of two orientations.", "anchors": ["atomtoolkit/atom.py:Atom.linked_levels", "atomtoolkit/atom.py:Transition.populate_subtransitions", "atomtoolkit/atom.py:HFTransition.populate_subtransitions"]}
{"id": "C186", "title": "Which level of a transition is given first", "statement": "Transition(E_1, E_2) and Transition(E_2, E_1) make the same transition: if any of the transitions of a program are made with their two levels in the other order, every later call gives the same result or exception, all energies, frequencies, links, aliases, rates, multipoles, lower and upper levels and warnings are the same, and only the attributes E_1 and E_2 are exchanged. Its hyperfine and Zeeman lines have the same strengths, rates and multipoles.", "quantifier": "all sane programs, all choices of transitions made the other way round, all orders of iteration", "why_tests_cant": "All programs and all subsets of transitions; the code treats E_1 specially in several places (its atom is asked, and it comes first in the pair handed to enforce_consistency).", "anchors": ["atomtoolkit/atom.py:BaseTransition", "atomtoolkit/atom.py:Transition.transition_allowed", "atomtoolkit/atom.py:Transition.set_frequency", "atomtoolkit/atom.py:Atom.enforce_consistency"]}
{"id": "C187", "title": "Isotopes share their fine structure", "statement": "Two atoms that differ only in the nuclear spin I, built by the same calls, none of which names a hyperfine or Zeeman sublevel, have the same levels, energies, constants, transitions, frequencies, links, aliases and warnings. Every call returns or raises the same in both, except that add_level may raise in one of them when the sublevels it is told to make cannot be made; if they can be made in both, all results agree.", "quantifier": "all programs of calls on fine levels and their transitions, all pairs of nuclear spins, all fields, all orders of iteration", "why_tests_cant": "All programs and all pairs of spins; the sublevels that add_level makes on the way differ in number and energy between the two atoms, and none of this may leak into the fine structure.", "anchors": ["atomtoolkit/atom.py:Atom.add_level", "atomtoolkit/atom.py:Atom.enforce_consistency", "atomtoolkit/atom.py:Transition.set_frequency"]}
