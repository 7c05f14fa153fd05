#!/bin/sh
# prints every axiom used by a claimed theorem; only propext, Classical.choice, Quot.sound may appear
cd "$(dirname "$0")/../lean" && python3 ../tools/manifest.py --axioms > /tmp/axioms.lean && lake env lean /tmp/axioms.lean | tr -d '\n' | sed "s/'Verif/\n'Verif/g" > /tmp/axioms.out
grep -c . /tmp/axioms.out
grep -v 'does not depend on any axioms' /tmp/axioms.out | sed 's/.*\[//; s/\].*//' | tr ',' '\n' | tr -d ' ' | sort | uniq -c
